import Verif.Model.Printer

/-! Lemmas: what `Style.print` writes is read back, for trees whose operands bind tightly enough. -/

namespace Doodle
namespace Printer

open Prec Reading

variable {α β π ρ : Type}

/-- levels are below those of the unary operators, and chaining is a property of the level -/
structure RulesWF (R : Rules β π ρ) : Prop where
  bound : ∀ o, R.level o < 99
  uniform : ∀ o o', R.level o = R.level o' → R.unchained o = R.unchained o'

/-- how tightly the root of a tree binds -/
def lvl (R : Rules β π ρ) : Tree α β π ρ → Nat
  | .atom _ => 103
  | .bin o _ _ => R.level o + 1
  | .pre o _ => if R.far o then 0 else 101
  | .post o _ => if R.near o then 102 else 100

/-- whether the tree is written between parentheses -/
def Style.parens (S : Style α β π ρ) (e : Tree α β π ρ) (current : Precedence) : Bool :=
  match S.own e with
  | none => false
  | some cutoff => needsParen current cutoff

/-- how tightly the printed form binds -/
def shown (R : Rules β π ρ) (S : Style α β π ρ) (e : Tree α β π ρ) (current : Precedence) : Nat :=
  if S.parens e current then 103 else lvl R e

/-- every operand is shown tightly enough for its operator -/
def Normal (R : Rules β π ρ) (S : Style α β π ρ) : Tree α β π ρ → Prop
  | .atom _ => True
  | .bin o l r =>
    R.level o + 1 ≤ shown R S l (S.bin o) ∧ (R.unchained o = true → R.level o + 1 < shown R S l (S.bin o)) ∧
      R.level o + 1 < shown R S r (S.bin o) ∧ Normal R S l ∧ Normal R S r
  | .pre o e => (R.far o = false → 101 ≤ shown R S e (S.preInner o)) ∧ Normal R S e
  | .post o e => (if R.near o then 102 else 100) ≤ shown R S e (S.postInner o) ∧ Normal R S e

/-- the printed form without the outer parentheses -/
def Style.body (S : Style α β π ρ) : Tree α β π ρ → List (Tok α β π ρ)
  | .atom a => [.atom a]
  | .bin o l r => S.print l (S.bin o) ++ .bin o :: S.print r (S.bin o)
  | .pre o e => .pre o :: S.print e (S.preInner o)
  | .post o e => S.print e (S.postInner o) ++ [.post o]

theorem Style.print_eq (S : Style α β π ρ) (e : Tree α β π ρ) (current : Precedence) :
    S.print e current = if S.parens e current then .lp :: (S.body e ++ [.rp]) else S.body e := by
  have key : ∀ (own : Option Precedence) (ts : List (Tok α β π ρ)), condParen own current ts =
      if (match own with | none => false | some cutoff => needsParen current cutoff) = true
      then .lp :: (ts ++ [.rp]) else ts := fun own ts => by
    cases own <;> simp [condParen]
  cases e <;> exact key _ _

abbrev EX (R : Rules β π ρ) (ts : List (Tok α β π ρ)) (r : Tree α β π ρ × List (Tok α β π ρ)) : Prop :=
  ∃ N, ∀ n, N ≤ n → expr R n ts = some r
abbrev CH (R : Rules β π ρ) (min : Nat) (ts : List (Tok α β π ρ))
    (r : Tree α β π ρ × List (Tok α β π ρ)) : Prop := ∃ N, ∀ n, N ≤ n → chain R n min ts = some r
abbrev OP (R : Rules β π ρ) (ts : List (Tok α β π ρ)) (r : Tree α β π ρ × List (Tok α β π ρ)) : Prop :=
  ∃ N, ∀ n, N ≤ n → operand R n ts = some r
abbrev MO (R : Rules β π ρ) (min : Nat) (e : Tree α β π ρ) (ts : List (Tok α β π ρ))
    (r : Tree α β π ρ × List (Tok α β π ρ)) : Prop := ∃ N, ∀ n, N ≤ n → more R n min e ts = some r

/-- what may follow an expression shown at level `s` -/
def Fits (R : Rules β π ρ) (s : Nat) : List (Tok α β π ρ) → Prop
  | .bin o :: _ => R.level o + 1 ≤ s ∧ (R.unchained o = true → R.level o + 1 < s)
  | .post o :: _ => R.near o = false ∧ 100 ≤ s
  | _ => True

def noNear (R : Rules β π ρ) : List (Tok α β π ρ) → Prop
  | .post o :: _ => R.near o = false
  | _ => True

def closed : List (Tok α β π ρ) → Prop
  | [] => True
  | .rp :: _ => True
  | _ => False

theorem Fits.mono {R : Rules β π ρ} {s s' : Nat} {ts : List (Tok α β π ρ)} (h : Fits R s ts)
    (hs : s ≤ s') : Fits R s' ts := by
  unfold Fits at *
  split at h
  · exact ⟨by omega, fun hu => by have := h.2 hu; omega⟩
  · exact ⟨h.1, by omega⟩
  · trivial

theorem Fits.noNear {R : Rules β π ρ} {s : Nat} {ts : List (Tok α β π ρ)} (h : Fits R s ts) :
    noNear R ts := by
  unfold Printer.noNear
  split
  · exact h.1
  · trivial

theorem closed.fits {R : Rules β π ρ} {s : Nat} {ts : List (Tok α β π ρ)} (h : closed ts) : Fits R s ts := by
  unfold Fits
  split <;> simp_all [closed]

theorem tail_eq {R : Rules β π ρ} {e : Tree α β π ρ} {ts : List (Tok α β π ρ)} (h : noNear R ts) :
    tail R e ts = (e, ts) := by
  unfold tail
  split
  · simp only [noNear] at h
    simp [h]
  · rfl

theorem EX.of_chain {R : Rules β π ρ} {ts : List (Tok α β π ρ)} {r} (h : CH R 0 ts r) : EX R ts r := by
  obtain ⟨N, h⟩ := h
  refine ⟨N + 3, fun n hn => ?_⟩
  obtain ⟨k, rfl⟩ : ∃ k, n = k + 3 := ⟨n - 3, by omega⟩
  have := h (k + 2) (by omega)
  match ts, this with
  | [], this => rw [expr]; exact this; simp
  | .atom _ :: _, this => rw [expr]; exact this; simp
  | .bin _ :: _, this => rw [expr]; exact this; simp
  | .post _ :: _, this => rw [expr]; exact this; simp
  | .lp :: _, this => rw [expr]; exact this; simp
  | .rp :: _, this => rw [expr]; exact this; simp
  | .pre o :: _, this =>
    rw [expr]
    cases hf : R.far o
    · simpa using this
    · rw [chain, operand] at this
      simp [hf] at this

theorem EX.far {R : Rules β π ρ} {o : π} {ts : List (Tok α β π ρ)} {r} (ho : R.far o = true)
    (h : EX R ts r) : EX R (.pre o :: ts) (.pre o r.1, r.2) := by
  obtain ⟨N, h⟩ := h
  refine ⟨N + 1, fun n hn => ?_⟩
  obtain ⟨k, rfl⟩ : ∃ k, n = k + 1 := ⟨n - 1, by omega⟩
  rw [expr]
  simp [ho, h k (by omega)]

theorem CH.of_operand {R : Rules β π ρ} {min : Nat} {ts ts' : List (Tok α β π ρ)} {e r}
    (h : OP R ts (e, ts')) (hm : MO R min e ts' r) : CH R min ts r := by
  obtain ⟨N, h⟩ := h
  obtain ⟨M, hm⟩ := hm
  refine ⟨max N M + 1, fun n hn => ?_⟩
  obtain ⟨k, rfl⟩ : ∃ k, n = k + 1 := ⟨n - 1, by omega⟩
  rw [chain, h k (by omega)]
  exact hm k (by omega)

theorem OP.atom {R : Rules β π ρ} {a : α} {ts : List (Tok α β π ρ)} :
    OP R (.atom a :: ts) (tail R (.atom a) ts) := by
  refine ⟨1, fun n hn => ?_⟩
  obtain ⟨k, rfl⟩ : ∃ k, n = k + 1 := ⟨n - 1, by omega⟩
  rw [operand]

theorem OP.pre {R : Rules β π ρ} {o : π} {ts : List (Tok α β π ρ)} {r} (ho : R.far o = false)
    (h : OP R ts r) : OP R (.pre o :: ts) (.pre o r.1, r.2) := by
  obtain ⟨N, h⟩ := h
  refine ⟨N + 1, fun n hn => ?_⟩
  obtain ⟨k, rfl⟩ : ∃ k, n = k + 1 := ⟨n - 1, by omega⟩
  rw [operand]
  simp [ho, h k (by omega)]

theorem OP.paren {R : Rules β π ρ} {ts rest : List (Tok α β π ρ)} {e} (h : EX R ts (e, .rp :: rest)) :
    OP R (.lp :: ts) (tail R e rest) := by
  obtain ⟨N, h⟩ := h
  refine ⟨N + 1, fun n hn => ?_⟩
  obtain ⟨k, rfl⟩ : ∃ k, n = k + 1 := ⟨n - 1, by omega⟩
  rw [operand]
  simp [h k (by omega)]

theorem MO.post {R : Rules β π ρ} {min : Nat} {o : ρ} {e ts} {r : Tree α β π ρ × List (Tok α β π ρ)}
    (ho : R.near o = false) (h : MO R min (.post o e) ts r) : MO R min e (.post o :: ts) r := by
  obtain ⟨N, h⟩ := h
  refine ⟨N + 1, fun n hn => ?_⟩
  obtain ⟨k, rfl⟩ : ∃ k, n = k + 1 := ⟨n - 1, by omega⟩
  rw [more]
  simp [ho, h k (by omega)]

theorem MO.bin {R : Rules β π ρ} {min : Nat} {o : β} {l e ts rest}
    {r : Tree α β π ρ × List (Tok α β π ρ)} (ho : min ≤ R.level o)
    (hc : CH R (R.level o + 1) ts (e, rest)) (hn : (R.unchained o && nextIs R (R.level o) rest) = false)
    (h : MO R min (.bin o l e) rest r) : MO R min l (.bin o :: ts) r := by
  obtain ⟨N, hc⟩ := hc
  obtain ⟨M, h⟩ := h
  refine ⟨max N M + 1, fun n hn => ?_⟩
  obtain ⟨k, rfl⟩ : ∃ k, n = k + 1 := ⟨n - 1, by omega⟩
  rw [more]
  simp only [ho, if_true, hc k (by omega), Option.bind_some]
  rw [if_neg (by simp_all)]
  exact h k (by omega)

theorem MO.done {R : Rules β π ρ} (hR : RulesWF R) {min : Nat} {e : Tree α β π ρ} {ts}
    (h : Fits R min ts) (hm : min < 100) : MO R min e ts (e, ts) := by
  refine ⟨1, fun n hn => ?_⟩
  obtain ⟨k, rfl⟩ : ∃ k, n = k + 1 := ⟨n - 1, by omega⟩
  match ts, h with
  | [], _ => rw [more] <;> simp
  | .atom _ :: _, _ => rw [more] <;> simp
  | .bin o :: _, h =>
    rw [more, if_neg]
    have := h.1
    omega
  | .post _ :: _, h => have := h.2; omega
  | .lp :: _, _ => rw [more] <;> simp
  | .rp :: _, _ => rw [more] <;> simp
  | .pre o :: _, _ => rw [more] <;> simp

/-- the induction hypothesis -/
structure Reads (R : Rules β π ρ) (e : Tree α β π ρ) (s : Nat) (ts : List (Tok α β π ρ)) : Prop where
  a : 102 ≤ s → ∀ rest, OP R (ts ++ rest) (tail R e rest)
  b : 101 ≤ s → ∀ rest, noNear R rest → OP R (ts ++ rest) (e, rest)
  c : ∀ min rest r, min < s → Fits R s rest → MO R min e rest r → CH R min (ts ++ rest) r
  d : ∀ rest, closed rest → EX R (ts ++ rest) (e, rest)

theorem Reads.shown {R : Rules β π ρ} {S : Style α β π ρ} {e : Tree α β π ρ}
    (h : Reads R e (lvl R e) (S.body e)) (current : Precedence) :
    Reads R e (shown R S e current) (S.print e current) := by
  rw [Style.print_eq, Printer.shown]
  split
  · have ha : ∀ rest, OP R ((.lp :: (S.body e ++ [.rp])) ++ rest) (tail R e rest) := fun rest => by
      have := h.d (.rp :: rest) trivial
      simpa using OP.paren this
    have hb : ∀ rest, noNear R rest → OP R ((.lp :: (S.body e ++ [.rp])) ++ rest) (e, rest) :=
      fun rest hr => by rw [← tail_eq (R := R) (e := e) hr]; exact ha rest
    exact ⟨fun _ => ha, fun _ => hb, fun min rest r _ hf hm => CH.of_operand (hb rest hf.noNear) hm,
      fun rest hr => EX.of_chain (CH.of_operand (hb rest (closed.fits (s := 0) hr).noNear)
        ⟨1, fun n hn => by
          obtain ⟨k, rfl⟩ : ∃ k, n = k + 1 := ⟨n - 1, by omega⟩
          match rest, hr with
          | [], _ => rw [more] <;> simp
          | .rp :: _, _ => rw [more] <;> simp⟩)⟩
  · exact h

theorem reads_of_c {R : Rules β π ρ} (hR : RulesWF R) {e : Tree α β π ρ} {s : Nat} {ts}
    (hs : 0 < s) (c : ∀ min rest r, min < s → Fits R s rest → MO R min e rest r → CH R min (ts ++ rest) r) :
    ∀ rest, closed rest → EX R (ts ++ rest) (e, rest) := fun rest hr =>
  EX.of_chain (c 0 rest _ hs hr.fits (MO.done hR hr.fits (by omega)))

theorem reads_of_b {R : Rules β π ρ} {e : Tree α β π ρ} {s : Nat} {ts}
    (b : ∀ rest, noNear R rest → OP R (ts ++ rest) (e, rest)) :
    ∀ min rest r, min < s → Fits R s rest → MO R min e rest r → CH R min (ts ++ rest) r :=
  fun _ rest _ _ hf hm => CH.of_operand (b rest hf.noNear) hm

theorem Normal.reads {R : Rules β π ρ} {S : Style α β π ρ} (hR : RulesWF R) :
    ∀ {e : Tree α β π ρ}, Normal R S e → Reads R e (lvl R e) (S.body e)
  | .atom a, _ => by
    have ha : ∀ rest, OP R (([.atom a] : List (Tok α β π ρ)) ++ rest) (tail R (.atom a) rest) :=
      fun rest => OP.atom
    have hb : ∀ rest, noNear R rest → OP R (([.atom a] : List (Tok α β π ρ)) ++ rest) (.atom a, rest) :=
      fun rest hr => by rw [← tail_eq (R := R) (e := .atom a) hr]; exact ha rest
    exact ⟨fun _ => ha, fun _ => hb, reads_of_b hb, reads_of_c hR (s := 103) (by omega) (reads_of_b hb)⟩
  | .bin o l r, h => by
    obtain ⟨h1, h2, h3, hl, hr⟩ := h
    have il := (Normal.reads hR hl).shown (S.bin o)
    have ir := (Normal.reads hR hr).shown (S.bin o)
    have hbo := hR.bound o
    have c : ∀ min rest res, min < lvl R (.bin o l r) → Fits R (lvl R (.bin o l r)) rest →
        MO R min (.bin o l r) rest res → CH R min (S.body (.bin o l r) ++ rest) res := by
      intro min rest res hmin hf hm
      simp only [lvl] at hmin hf
      simp only [Style.body, List.append_assoc, List.cons_append]
      refine il.c min _ res (by omega) ⟨h1, h2⟩ ?_
      refine MO.bin (rest := rest) (e := r) (by omega) ?_ ?_ hm
      · exact ir.c _ rest _ (by omega) (hf.mono (by omega)) (MO.done hR hf (by omega))
      · unfold Fits at hf
        unfold nextIs
        split at hf
        · rename_i o' _
          by_cases he : R.level o' = R.level o
          · have hu : R.unchained o = false := by
              rw [← hR.uniform o' o he]
              cases hu : R.unchained o'
              · rfl
              · have := hf.2 hu
                omega
            simp [hu]
          · simp [he]
        · simp
        · split <;> simp_all
    exact ⟨fun hs => by simp only [lvl] at hs; omega, fun hs => by simp only [lvl] at hs; omega, c,
      reads_of_c hR (by simp [lvl]) c⟩
  | .pre o e, h => by
    obtain ⟨h1, he⟩ := h
    have ie := (Normal.reads hR he).shown (S.preInner o)
    cases ho : R.far o
    · have hb : ∀ rest, noNear R rest → OP R (S.body (.pre o e) ++ rest) (.pre o e, rest) := by
        intro rest hr
        exact OP.pre ho (ie.b (h1 ho) rest hr)
      exact ⟨fun hs => by simp [lvl, ho] at hs, fun _ => hb, reads_of_b hb,
        reads_of_c hR (s := 103) (by omega) (reads_of_b hb)⟩
    · exact ⟨fun hs => by simp [lvl, ho] at hs, fun hs => by simp [lvl, ho] at hs,
        fun min rest r hmin => by simp [lvl, ho] at hmin,
        fun rest hr => EX.far ho (ie.d rest hr)⟩
  | .post o e, h => by
    obtain ⟨h1, he⟩ := h
    have ie := (Normal.reads hR he).shown (S.postInner o)
    cases ho : R.near o
    · simp only [ho] at h1
      have c : ∀ min rest res, min < lvl R (.post o e) → Fits R (lvl R (.post o e)) rest →
          MO R min (.post o e) rest res → CH R min (S.body (.post o e) ++ rest) res := by
        intro min rest res hmin hf hm
        simp only [lvl, ho] at hmin hf
        simp only [Style.body, List.append_assoc, List.cons_append, List.nil_append]
        have h1' : 100 ≤ Printer.shown R S e (S.postInner o) := by simpa using h1
        have hmin' : min < 100 := by simpa using hmin
        exact ie.c min _ res (by omega) ⟨ho, h1'⟩ (MO.post ho hm)
      exact ⟨fun hs => by simp [lvl, ho] at hs, fun hs => by simp [lvl, ho] at hs, c,
        reads_of_c hR (by simp [lvl, ho]) c⟩
    · simp only [ho, if_true] at h1
      have ha : ∀ rest, OP R (S.body (.post o e) ++ rest) (tail R (.post o e) rest) := by
        intro rest
        simp only [Style.body, List.append_assoc, List.cons_append, List.nil_append]
        have := ie.a h1 (.post o :: rest)
        rw [tail] at this
        simpa [ho] using this
      have hb : ∀ rest, noNear R rest → OP R (S.body (.post o e) ++ rest) (.post o e, rest) :=
        fun rest hr => by rw [← tail_eq (R := R) (e := .post o e) hr]; exact ha rest
      exact ⟨fun _ => ha, fun _ => hb, reads_of_b hb, reads_of_c hR (s := 103) (by omega) (reads_of_b hb)⟩

/-- What is printed for a tree with tight operands is read as that tree. -/
theorem Normal.readAs {R : Rules β π ρ} {S : Style α β π ρ} (hR : RulesWF R) {e : Tree α β π ρ}
    (h : Normal R S e) (current : Precedence) : ReadAs R (S.print e current) e := by
  have := ((h.reads hR).shown current).d [] trivial
  rw [List.append_nil] at this
  exact this

end Printer
end Doodle
