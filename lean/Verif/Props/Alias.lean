import Verif.Lemmas.Alias
import Verif.Spec.Alias

/-!
C49: the tables that keep track of which metavariables have been made equal.
-/

namespace Doodle
namespace Tc

open Aliases AliasSpec

namespace AliasSpec

theorem Linked.mono {h h' : List Request} (hs : ∀ r ∈ h, r ∈ h') {a b : Nat} (hl : Linked h a b) :
    Linked h' a b := by
  induction hl with
  | asked h => exact .asked (hs _ h)
  | refl => exact .refl _
  | symm _ ih => exact .symm ih
  | trans _ _ ih1 ih2 => exact .trans ih1 ih2

theorem created_append (h : List Request) (r : Request) :
    created (h ++ [r]) = created h + if r = .fresh then 1 else 0 := by
  unfold created
  rw [List.filter_append, List.length_append]
  congr 1
  by_cases hr : r = .fresh
  · subst hr; rfl
  · rw [if_neg hr, List.filter_cons_of_neg (by simpa using hr)]; rfl

/-- what is true of the table after every history -/
structure Inv (t : Aliases) (h : List Request) : Prop where
  wf : WF t
  len : t.length = created h
  iff : ∀ v w, root t v = root t w ↔ Linked h v w

theorem Inv.fresh {t : Aliases} {h : List Request} (hi : Inv t h) :
    Inv (t ++ [Alias.ground]) (h ++ [.fresh]) := by
  refine ⟨wf_push hi.wf, ?_, fun v w => ?_⟩
  · rw [created_append, if_pos rfl, List.length_append, hi.len]; rfl
  · rw [root_push, root_push, hi.iff]
    refine ⟨Linked.mono fun r hr => List.mem_append_left _ hr, fun hl => ?_⟩
    induction hl with
    | asked h =>
      rcases List.mem_append.mp h with h | h
      · exact .asked h
      · rw [List.mem_singleton] at h; cases h
    | refl => exact .refl _
    | symm _ ih => exact .symm ih
    | trans _ _ ih1 ih2 => exact .trans ih1 ih2

theorem Inv.join {t t' : Aliases} {h : List Request} (hi : Inv t h) {v1 v2 : Nat} (hl : t'.length = t.length)
    (hw : WF t')
    (hr : ∀ v, root t' v =
      if root t v = max (root t v1) (root t v2) then min (root t v1) (root t v2) else root t v) :
    Inv t' (h ++ [.join v1 v2]) := by
  refine ⟨hw, ?_, fun v w => ?_⟩
  · rw [created_append, if_neg (by intro h; cases h), hl, hi.len]; rfl
  · constructor
    · intro he
      have old : ∀ {a b : Nat}, root t a = root t b → Linked (h ++ [.join v1 v2]) a b := fun he =>
        Linked.mono (fun r hr => List.mem_append_left _ hr) ((hi.iff _ _).mp he)
      have new : Linked (h ++ [.join v1 v2]) v1 v2 := .asked (by simp)
      rw [hr, hr] at he
      -- each of `v`, `w` is linked to `v1` if its root is one of the two roots
      have side : ∀ x, (root t x = root t v1 ∨ root t x = root t v2) → Linked (h ++ [.join v1 v2]) x v1 := by
        rintro x (hx | hx)
        · exact old hx
        · exact (old hx).trans new.symm
      by_cases h1 : root t v = root t w
      · exact old h1
      · have hv : root t v = root t v1 ∨ root t v = root t v2 := by
          split at he <;> split at he <;> omega
        have hw' : root t w = root t v1 ∨ root t w = root t v2 := by
          split at he <;> split at he <;> omega
        exact (side v hv).trans (side w hw').symm
    · intro hl
      induction hl with
      | asked h =>
        rcases List.mem_append.mp h with h | h
        · have := (hi.iff _ _).mpr (.asked h)
          rw [hr, hr, this]
        · rw [List.mem_singleton] at h
          cases h
          rw [hr, hr]
          split <;> split <;> omega
      | refl => rfl
      | symm _ ih => exact ih.symm
      | trans _ _ ih1 ih2 => exact ih1.trans ih2

theorem Inv.represents {t : Aliases} {h : List Request} (hi : Inv t h) : Represents t h := by
  refine ⟨root t, fun v hv => getCanonical_ok (by rw [hi.len]; exact hv), fun v _ w _ => hi.iff v w,
    fun v _ => ⟨(hi.iff _ _).mp (root_root hi.wf v).symm, fun w hw => ?_⟩⟩
  rw [(hi.iff _ _).mpr hw]
  exact root_le hi.wf w

theorem Inv.run {join : Aliases → Nat → Nat → Panicky (Plan × Aliases)} {ok : Nat → Nat → Prop}
    (hj : ∀ (t : Aliases) v1 v2, WF t → v1 < t.length → v2 < t.length → ok v1 v2 →
      ∃ plan t', join t v1 v2 = .ok (plan, t') ∧ t'.length = t.length ∧ WF t' ∧
        ∀ v, root t' v =
          if root t v = max (root t v1) (root t v2) then min (root t v1) (root t v2) else root t v) :
    ∀ (rest h : List Request) (t : Aliases), Inv t h → InScope (created h) rest →
      (∀ v1 v2, Request.join v1 v2 ∈ rest → ok v1 v2) →
      ∃ t', Aliases.run join rest t = .ok t' ∧ Inv t' (h ++ rest)
  | [], h, t, hi, _, _ => ⟨t, rfl, by rw [List.append_nil]; exact hi⟩
  | .fresh :: rest, h, t, hi, hs, hok => by
    have hs' : InScope (created (h ++ [.fresh])) rest := by
      rw [created_append, if_pos rfl]; exact hs
    obtain ⟨t', h1, h2⟩ := Inv.run hj rest _ _ hi.fresh hs' fun a b hm => hok a b (List.mem_cons_of_mem _ hm)
    refine ⟨t', h1, ?_⟩
    rw [List.append_assoc] at h2
    exact h2
  | .join v1 v2 :: rest, h, t, hi, hs, hok => by
    obtain ⟨hs1, hs2, hs3⟩ := hs
    obtain ⟨plan, t1, e, l, w, r⟩ := hj t v1 v2 hi.wf (by rw [hi.len]; exact hs1) (by rw [hi.len]; exact hs2)
      (hok v1 v2 List.mem_cons_self)
    have hi1 := hi.join l w r
    have hs' : InScope (created (h ++ [.join v1 v2])) rest := by
      rw [created_append, if_neg (by intro h; cases h)]; exact hs3
    obtain ⟨t', h1, h2⟩ := Inv.run hj rest _ _ hi1 hs' fun a b hm => hok a b (List.mem_cons_of_mem _ hm)
    refine ⟨t', ?_, ?_⟩
    · unfold Aliases.run
      rw [e]
      exact h1
    · rw [List.append_assoc] at h2
      exact h2

theorem inv_nil : Inv [] [] :=
  ⟨wf_nil, rfl, fun v w => ⟨fun h => by
    have h' : v = w := h
    rw [h']; exact .refl _, fun h => by
    have : ∀ {a b : Nat}, Linked [] a b → a = b := fun h => by
      induction h with
      | asked h => cases h
      | refl => rfl
      | symm _ ih => exact ih.symm
      | trans _ _ ih1 ih2 => exact ih1.trans ih2
    rw [this h]⟩⟩

end AliasSpec

/-- **C49.** Whatever metavariables the type checker creates and whichever of them it asks to be equal, in
whatever order: no assertion in its bookkeeping fails, and afterwards two metavariables have one representative if
and only if the requests together make them equal; the representative is the oldest of them. -/
theorem C49_checker (h : List Request) (hs : InScope 0 h) :
    ∃ t, Aliases.run pairChecker h [] = .ok t ∧ Represents t h := by
  obtain ⟨t, e, hi⟩ := Inv.run (join := pairChecker) (ok := fun _ _ => True) (fun t v1 v2 hw h1 h2 _ => by
    obtain ⟨plan, t', e, l, w, r, _⟩ := pair_spec (w := fun v1 _ => v1) hw h1 h2 (fun can fwd a b c _ hm => by
      have := (hw.fwd can fwd c).2.2 v1 hm
      rw [a] at this
      cases this)
    exact ⟨plan, t', e, l, w, r⟩) h [] [] inv_nil hs (fun _ _ _ => trivial)
  exact ⟨t, e, hi.represents⟩

/-- six variables in two classes, through requests that join classes, go through back references, and repeat -/
example : InScope 0 [.fresh, .fresh, .fresh, .fresh, .fresh, .join 3 4, .join 1 4, .join 4 3, .fresh, .join 5 2,
      .join 4 1, .join 0 5] ∧
    Aliases.run pairChecker [.fresh, .fresh, .fresh, .fresh, .fresh, .join 3 4, .join 1 4, .join 4 3, .fresh,
      .join 5 2, .join 4 1, .join 0 5] [] =
      .ok [.canonical [5, 2], .canonical [4, 3], .backRef 0, .backRef 1, .backRef 1, .backRef 0] := by
  refine ⟨by simp [InScope], by decide +kernel⟩

/-- **C49**, for the copy of the table used for numeric expressions: the same, when each request names the younger
variable first (missing: the other order). -/
theorem C49_numeric_partial (h : List Request) (hs : InScope 0 h)
    (ho : ∀ v1 v2, Request.join v1 v2 ∈ h → v2 ≤ v1) :
    ∃ t, Aliases.run pairEngine h [] = .ok t ∧ Represents t h := by
  obtain ⟨t, e, hi⟩ := Inv.run (join := pairEngine) (ok := fun v1 v2 => v2 ≤ v1) (fun t v1 v2 hw h1 h2 ho => by
    obtain ⟨plan, t', e, l, w, r, _⟩ := pair_spec (w := fun _ v2 => v2) hw h1 h2 (fun can fwd a b c hlt hm => by
      have := (hw.back v2 can b).1
      omega)
    exact ⟨plan, t', e, l, w, r⟩) h [] [] inv_nil hs ho
  exact ⟨t, e, hi.represents⟩

example : InScope 0 [.fresh, .fresh, .fresh, .fresh, .join 3 1, .join 3 2, .join 2 0] ∧
    Aliases.run pairEngine [.fresh, .fresh, .fresh, .fresh, .join 3 1, .join 3 2, .join 2 0] [] =
      .ok [.canonical [3, 2, 1], .backRef 0, .backRef 0, .backRef 0] := by
  refine ⟨by simp [InScope], by decide +kernel⟩

/-- In the other order the copy for numeric expressions fails an assertion of its own (debug builds): it looks for
the wrong variable (src/typecheck/inference.rs:353).  The type checker's copy accepts the same history. -/
theorem C49_numeric_refuted :
    ∃ h, InScope 0 h ∧ Aliases.run pairEngine h [] = .panic ∧ ∃ t, Aliases.run pairChecker h [] = .ok t :=
  ⟨[.fresh, .fresh, .fresh, .join 1 2, .join 0 2], by simp [InScope], by decide +kernel,
    [.canonical [2, 1], .backRef 0, .backRef 0], by decide +kernel⟩

end Tc
end Doodle
