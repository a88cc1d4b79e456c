import Verif.Lemmas.UnifyOps
import Verif.Spec.Request

/-!
C56: the unification of the type checker forgets nothing it was told.

The state of the type checker stands for the assignments of types to meta-variables that solve it
(`Solves`, Verif/Spec/Unify.lean).  The theorems say that after any history of requests that were all accepted,
every assignment that solves the state satisfies every request of the history.  The requests of a history may
overlap in any way: a request suspends while the requests it gives rise to run, and these may join the classes,
replace the constraints or merge the variants the suspended request is working on.

The theorems are about types without `Hole` and `Empty`: the last theorems show that with them the claim fails.
-/

namespace Doodle
namespace Tc

open Num (MachineRep BitWidth)

theorem request_learns {o : Orders} (ho : o.Lists) {n : Nat} {r : Request} {a : Unit} {s s' : Checker} (hg : Good s)
    (hf : r.Firm) (h : r.run o n s = .ok (a, s')) : Learns s s' (fun σ => r.Met σ) := by
  cases r with
  | fresh =>
    unfold Request.run at h
    rw [TcM.bind_eq_ok] at h
    obtain ⟨v, s1, h1, h⟩ := h
    obtain ⟨_, rfl⟩ := TcM.pure_eq_ok.mp h
    exact (newVar_learns hg h1).2.2.2
  | eqVars v w => exact pair_learns ho hg h
  | eqType v t => exact varU_learns ho hg hf h
  | eqTypes t u =>
    unfold Request.run at h
    rw [TcM.bind_eq_ok] at h
    obtain ⟨t0, s1, h1, h⟩ := h
    obtain ⟨_, rfl⟩ := TcM.pure_eq_ok.mp h
    exact (utype_learns ho hg hf.1 hf.2 h1).2.weaken fun σ _ _ q => q.1
  | oneOf v bs => exact baseset_learns ho hg h
  | oneOfInts v is => exact intset_learns ho hg h
  | component tv ix v => exact projIndex_learns ho hg h
  | field rv l v => exact projField_learns ho hg h
  | param ov v => exact projParam_learns ho hg h
  | elem sv v => exact projElem_learns ho hg h
  | variant v l t =>
    refine (addVariant_learns ho hg hf h).weaken fun σ _ _ q => ?_
    obtain ⟨bs, U, e1, e2, rfl⟩ := q
    exact ⟨bs, e1, e2⟩

/-- **A request forgets nothing.**  From a well formed state, an accepted request leads to a well formed state, and
every assignment that solves it solves the state before and satisfies the request — whatever the order in which
hash tables are visited and however deep the recursion is.  (Partial: the types of the request do not contain
`Hole` or `Empty`.) -/
theorem C56_request_kept_partial (o : Orders) (ho : o.Lists) (n : Nat) (r : Request) (s s' : Checker) (a : Unit)
    (hg : Good s) (hf : r.Firm) (h : r.run o n s = .ok (a, s')) :
    Good s' ∧ ∀ σ, Solves σ s' → Solves σ s ∧ r.Met σ :=
  ⟨(request_learns ho hg hf h).good, (request_learns ho hg hf h).solves⟩

/-- **Every history of requests is kept.**  When all requests of a history, starting with an empty type checker,
are accepted, then every assignment that solves the final state satisfies every request of the history.  (Partial:
the types of the requests do not contain `Hole` or `Empty`.) -/
theorem C56_history_kept_partial (o : Orders) (ho : o.Lists) (n : Nat) (rs : List Request) (s' : Checker) (a : Unit)
    (hf : ∀ r ∈ rs, r.Firm) (h : runAll o n rs Checker.new = .ok (a, s')) (σ : Assignment) (hσ : Solves σ s') :
    ∀ r ∈ rs, r.Met σ := by
  have main : ∀ (rs : List Request) (s : Checker), Good s → (∀ r ∈ rs, r.Firm) → runAll o n rs s = .ok (a, s') →
      Learns s s' (fun σ => ∀ r ∈ rs, r.Met σ) := by
    intro rs
    induction rs with
    | nil =>
      intro s hg _ h
      obtain ⟨_, rfl⟩ := TcM.pure_eq_ok.mp h
      exact (Learns.refl hg).weaken fun σ _ _ _ r hr => (nomatch hr)
    | cons r rs ih =>
      intro s hg hf h
      unfold runAll at h
      rw [TcM.bind_eq_ok] at h
      obtain ⟨_, s1, h1, h⟩ := h
      have l1 := request_learns ho hg (hf r (.head _)) h1
      refine l1.trans (ih s1 l1.good (fun r hr => hf r (.tail _ hr)) h) fun σ q1 q2 r' hr' => ?_
      rcases List.mem_cons.mp hr' with rfl | hr'
      · exact q1
      · exact q2 r' hr'
  exact ((main rs Checker.new good_new hf h).solves σ hσ).2

/-- the type that unification returns stands for both types (partial: without `Hole` and `Empty`) -/
theorem C56_unified_type_partial (o : Orders) (ho : o.Lists) (n : Nat) (t1 t2 t0 : UType) (s s' : Checker)
    (hg : Good s) (h1 : t1.Firm) (h2 : t2.Firm) (h : unifyUtype o n t1 t2 s = .ok (t0, s')) (σ : Assignment)
    (hσ : Solves σ s') : t0.inst σ = t1.inst σ ∧ t0.inst σ = t2.inst σ := by
  obtain ⟨q1, q2⟩ := ((utype_learns ho hg h1 h2 h).2.solves σ hσ).2
  exact ⟨by rw [q1, q2], q2⟩

/-! ### the hypotheses are met -/

/-- the orders of the examples -/
def demoOrders : Orders := ⟨fun l => l.reverse, fun l => l.reverse, fun l => l.reverse⟩

theorem demoOrders_lists : demoOrders.Lists :=
  ⟨fun l => l.reverse_perm, fun l => l.reverse_perm, fun l => l.reverse_perm⟩

/-- Two unions that share a variant are joined: the contents of the variant are a sequence in one and a tuple
component in the other, so joining them unifies the element of the sequence with another variable. -/
def demoHistory : List Request :=
  [.fresh, .fresh, .fresh, .fresh,
   .variant 0 "A" (.seq (.var 2) .constructed), .variant 0 "B" (.var 3),
   .variant 1 "A" (.seq (.base (.num .b16)) .readArray), .variant 1 "C" (.tuple [.var 2, .var 3]),
   .eqVars 1 0, .oneOf 3 (.single .bool)]

/-- a solution -/
def demoSolution : Assignment
  | 0 | 1 => .union [("A", .seq (.base (.num .b16))), ("B", .base .bool), ("C", .tuple [.base (.num .b16), .base .bool])]
  | 2 => .base (.num .b16)
  | 3 => .base .bool
  | _ => .any

example : ∀ r ∈ demoHistory, r.Firm := by
  simp [demoHistory, Request.Firm, UType.Firm, UType.FirmList]

theorem variant_holds {σ : Assignment} {store : Nat → Option VarMap} {id : Nat} {T : ValueType} (m : VarMap)
    (h : store id = some m) (hm : ∀ e ∈ m, HasVariant σ e.1 e.2 T) : (UConstraints.variant id).Holds σ store T :=
  ⟨m, h, fun l t ht => hm (l, t) (tget_mem ht)⟩

/-- the state after a history -/
def finalState (rs : List Request) : Checker :=
  match runAll demoOrders 20 rs Checker.new with
  | .ok (_, s) => s
  | _ => Checker.new

/-- the history is accepted -/
def accepted (rs : List Request) : Bool :=
  match runAll demoOrders 20 rs Checker.new with
  | .ok _ => true
  | _ => false

/-- the history makes the type checker panic -/
def panicked (rs : List Request) : Bool :=
  match runAll demoOrders 20 rs Checker.new with
  | .panic => true
  | _ => false

theorem accepted_ok {rs : List Request} (h : accepted rs = true) :
    runAll demoOrders 20 rs Checker.new = .ok ((), finalState rs) := by
  unfold accepted at h
  unfold finalState
  cases hr : runAll demoOrders 20 rs Checker.new with
  | ok p => rfl
  | err e => rw [hr] at h; cases h
  | panic => rw [hr] at h; cases h
  | fuel => rw [hr] at h; cases h

theorem solves_final {σ : Assignment} {s : Checker} (A : Aliases) (C : List UConstraints) (hA : s.aliases = A)
    (hC : s.constraints = C) (hs : ∀ v, σ v = σ (Aliases.root A v))
    (hh : ∀ v, (C.getD (Aliases.root A v) .indefinite).Holds σ s.store (σ v)) : Solves σ s := by
  subst hA hC
  exact ⟨fun v w (h : Aliases.root s.aliases v = Aliases.root s.aliases w) => by rw [hs v, hs w, h], hh⟩

example : ∃ s', runAll demoOrders 20 demoHistory Checker.new = .ok ((), s') ∧ Solves demoSolution s' := by
  have union : ∀ {store : Nat → Option VarMap}, store 0 = some [("A", .seq (.var 2) .constructed), ("B", .var 3),
      ("C", .tuple [.var 2, .var 3])] → (UConstraints.variant 0).Holds demoSolution store (demoSolution 0) := by
    intro store h
    refine variant_holds _ h fun e he => ?_
    simp only [List.mem_cons, List.not_mem_nil, or_false] at he
    rcases he with rfl | rfl | rfl <;> exact ⟨_, _, rfl, rfl, rfl⟩
  have hst : (finalState demoHistory).store 0 = some [("A", .seq (.var 2) .constructed), ("B", .var 3),
      ("C", .tuple [.var 2, .var 3])] := by decide +kernel
  refine ⟨_, accepted_ok (by decide +kernel), solves_final [.canonical [1], .backRef 0, .ground, .ground]
    [.variant 0, .variant 0, .invariant (.equiv (.base (.num .b16))), .invariant (.equiv (.base .bool))]
    (by decide +kernel) (by decide +kernel) (fun v => ?_) fun v => ?_⟩
  · match v with
    | 0 => rfl
    | 1 => rfl
    | 2 => rfl
    | 3 => rfl
    | m + 4 => rfl
  · match v with
    | 0 => exact union hst
    | 1 => exact union hst
    | 2 => exact .inr (.inr rfl)
    | 3 => exact .inr (.inr rfl)
    | n + 4 => trivial

/-! ### what is not true -/

/-- With `Empty` (the type of a format that always fails) the claim is false: joining a variable known to be `Empty`
with a union that was made later forgets the variants of the union. -/
theorem C56_empty_forgets_refuted :
    ∃ (rs : List Request) (s' : Checker) (σ : Assignment), runAll demoOrders 20 rs Checker.new = .ok ((), s') ∧
      .variant 1 "A" (.base .bool) ∈ rs ∧ Solves σ s' ∧ ¬ (Request.variant 1 "A" (.base .bool)).Met σ := by
  refine ⟨[.fresh, .fresh, .eqType 0 .empty, .variant 1 "A" (.base .bool), .eqVars 0 1], _, fun _ => .base .char,
    accepted_ok (by decide +kernel), by simp, solves_final [.canonical [1], .backRef 0]
      [.invariant (.equiv .empty), .variant 0] (by decide +kernel) (by decide +kernel) (fun _ => rfl)
      fun v => ?_, ?_⟩
  · match v with
    | 0 => exact .inr (.inl rfl)
    | 1 => exact .inr (.inl rfl)
    | n + 2 => trivial
  · rintro ⟨bs, h, _⟩
    cases h

/-- With `Hole` inside a type the claim is false: a sequence whose elements are known to have the type of a variable
is no longer connected to that variable once it has been unified with a sequence of `Hole`. -/
theorem C56_hole_forgets_refuted :
    ∃ (rs : List Request) (s' : Checker) (σ : Assignment), runAll demoOrders 20 rs Checker.new = .ok ((), s') ∧
      .elem 0 1 ∈ rs ∧ Solves σ s' ∧ ¬ (Request.elem 0 1).Met σ := by
  refine ⟨[.fresh, .fresh, .elem 0 1, .eqType 0 (.seq .hole .constructed), .eqType 1 (.base .bool)], _,
    fun v => if v = 0 then .seq .any else .base .bool, accepted_ok (by decide +kernel), by simp,
    solves_final [.ground, .ground] [.invariant (.equiv (.seq .hole .constructed)), .invariant (.equiv (.base .bool))]
      (by decide +kernel) (by decide +kernel) (fun v => ?_) fun v => ?_, ?_⟩
  · match v with
    | 0 => rfl
    | 1 => rfl
    | m + 2 => rfl
  · match v with
    | 0 => exact .inr (.inr rfl)
    | 1 => exact .inr (.inr rfl)
    | n + 2 => trivial
  · intro h
    cases h

/-- An accepted history need not have a solution: a variable may be unified with a type that contains it, or made a
variant of itself, since the check for cycles is only made when two types are unified. -/
theorem C56_infinite_type_refuted :
    (∃ s', runAll demoOrders 20 [.fresh, .eqType 0 (.tuple [.var 0])] Checker.new = .ok ((), s') ∧
      ∀ σ, ¬ Solves σ s') ∧
    (∃ s', runAll demoOrders 20 [.fresh, .variant 0 "A" (.var 0)] Checker.new = .ok ((), s') ∧ ∀ σ, ¬ Solves σ s') ∧
    (∃ s', runAll demoOrders 20 [.fresh, .fresh, .elem 0 1, .eqVars 0 1] Checker.new = .ok ((), s') ∧
      ∀ σ, ¬ Solves σ s') := by
  have kept : ∀ {rs : List Request} {σ : Assignment}, accepted rs = true → (∀ r ∈ rs, r.Firm) →
      Solves σ (finalState rs) → ∀ r ∈ rs, r.Met σ := fun {rs σ} h hf hσ =>
    C56_history_kept_partial demoOrders demoOrders_lists 20 rs _ () hf (accepted_ok h) σ hσ
  refine ⟨⟨_, accepted_ok (by decide +kernel), fun σ h => ?_⟩, ⟨_, accepted_ok (by decide +kernel), fun σ h => ?_⟩,
    ⟨_, accepted_ok (by decide +kernel), fun σ h => ?_⟩⟩
  · have h' : σ 0 = .tuple [σ 0] := kept (by decide +kernel) (by simp [Request.Firm, UType.Firm, UType.FirmList]) h
      (.eqType 0 (.tuple [.var 0])) (by simp)
    have := congrArg sizeOf h'
    simp only [ValueType.tuple.sizeOf_spec, List.cons.sizeOf_spec] at this
    omega
  · obtain ⟨bs, e, hb⟩ := kept (by decide +kernel) (by simp [Request.Firm, UType.Firm]) h
      (.variant 0 "A" (.var 0)) (by simp)
    have h1 := tget_lt hb
    have h2 := congrArg sizeOf e
    simp only [ValueType.union.sizeOf_spec] at h2
    have h3 : (UType.var 0).inst σ = σ 0 := rfl
    rw [h3] at h1
    omega
  · have hh := kept (by decide +kernel) (by simp [Request.Firm]) h
    have h1 : σ 0 = .seq (σ 1) := hh (.elem 0 1) (by simp)
    have h2 : σ 0 = σ 1 := hh (.eqVars 0 1) (by simp)
    rw [← h2] at h1
    have := congrArg sizeOf h1
    simp only [ValueType.seq.sizeOf_spec] at this
    omega

/-- A type error is not always reported as an error: a projection from a variable whose type has another shape, or a
type of another shape for a variable that has been projected from, panics.  So does adding a variant to a variable that
a failing alternative made `Empty`. -/
theorem C56_mismatch_panics_refuted :
    runAll demoOrders 20 [.fresh, .fresh, .eqType 0 (.base .bool), .elem 0 1] Checker.new = .panic ∧
    runAll demoOrders 20 [.fresh, .fresh, .elem 0 1, .eqType 0 (.base .bool)] Checker.new = .panic ∧
    runAll demoOrders 20 [.fresh, .fresh, .fresh, .component 0 0 1, .field 0 "a" 2] Checker.new = .panic ∧
    runAll demoOrders 20 [.fresh, .fresh, .elem 0 1, .eqType 0 .empty] Checker.new = .panic ∧
    runAll demoOrders 20 [.fresh, .eqType 0 .empty, .variant 0 "A" (.base .bool)] Checker.new = .panic := by
  have p : ∀ {rs : List Request}, panicked rs = true → runAll demoOrders 20 rs Checker.new = .panic := fun {rs} h => by
    unfold panicked at h
    cases hr : runAll demoOrders 20 rs Checker.new with
    | panic => rfl
    | ok p => rw [hr] at h; cases h
    | err e => rw [hr] at h; cases h
    | fuel => rw [hr] at h; cases h
  exact ⟨p (by decide +kernel), p (by decide +kernel), p (by decide +kernel), p (by decide +kernel),
    p (by decide +kernel)⟩

end Tc
end Doodle
