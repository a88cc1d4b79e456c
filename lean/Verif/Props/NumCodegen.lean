import Verif.Lemmas.NumCodegen
import Verif.Props.Inference

/-! C60: the code generated for a numeric expression computes what the expression says. -/

namespace Doodle
namespace Num

open Tc (TypedExpr)
open Tc.TypingSpec (untyped Typing)
open Codegen CodegenSpec

theorem synthesize_bin (t : MachineRep) (sig : (MachineRep × MachineRep) × MachineRep) (op : BasicBinOp)
    (o : Option MachineRep) (l r : TypedExpr) : synthesize (.binOp t sig op o l r) =
    (synthesize l).bind fun a => (synthesize r).bind fun b => binCode op sig.1.1 sig.1.2 sig.2 a b := rfl

theorem synthesize_un (t : MachineRep) (sig : MachineRep × MachineRep) (op : BasicUnaryOp)
    (o : Option MachineRep) (e : TypedExpr) : synthesize (.unaryOp t sig op o e) =
    (synthesize e).bind fun a => unCode op sig.1 sig.2 a := rfl

theorem synthesize_cast (t : MachineRep) (sig : MachineRep × MachineRep) (o : MachineRep) (bw : Bool)
    (e : TypedExpr) : synthesize (.cast t sig o bw e) =
    (synthesize e).bind fun a => castCode bw sig.1 sig.2 a := rfl

/-! ### code without a type -/

theorem call_none (f : FName) (a : Code) (vars : String → Option MachineRep) (h : a.typeOf vars = none) :
    (Code.call f a).typeOf vars = none := by
  simp only [Code.typeOf, h]
  split <;> simp_all

theorem call2_none (f : FName) (a b : Code) (vars : String → Option MachineRep)
    (h : a.typeOf vars = none ∨ b.typeOf vars = none) : (Code.call2 f a b).typeOf vars = none := by
  simp only [Code.typeOf]
  rcases h with h | h <;> rw [h] <;> split <;> simp_all

theorem binCode_none {op : BasicBinOp} {l r o : MachineRep} {a b c : Code} (hc : binCode op l r o a b = .ok c)
    (vars : String → Option MachineRep) (h : a.typeOf vars = none ∨ b.typeOf vars = none) :
    c.typeOf vars = none := by
  have fb : ∀ t0 t1 t2 f, (Code.fallback2 t0 t1 t2 f op a b).typeOf vars = none := by
    intro t0 t1 t2 f
    simp only [Code.typeOf]
    rw [if_neg]
    rintro ⟨h1, h2⟩
    rcases h with h | h <;> simp_all
  unfold binCode at hc
  cases hk : classifyBinary l r o with
  | panic => rw [hk] at hc; cases hc
  | ok cls =>
    rw [hk, bind_ok_ok] at hc
    cases cls <;> cases hc
    · exact call2_none _ _ _ _ h
    · exact call2_none _ _ _ _ h
    · exact call2_none _ _ _ _ h
    · exact fb _ _ _ _
    · exact fb _ _ _ _

theorem unCode_none {op : BasicUnaryOp} {i o : MachineRep} {a c : Code} (hc : unCode op i o a = .ok c)
    (vars : String → Option MachineRep) (h : a.typeOf vars = none) : c.typeOf vars = none := by
  unfold unCode at hc
  cases hk : classifyUnary (some op) i o with
  | panic => rw [hk] at hc; cases hc
  | ok cls =>
    rw [hk, bind_ok_ok] at hc
    cases cls <;> cases hc
    · exact call_none _ _ _ h
    · exact call_none _ _ _ h
    · cases op <;> simp [Code.typeOf, h]

theorem castCode_none {bw : Bool} {i o : MachineRep} {a c : Code} (hc : castCode bw i o a = .ok c)
    (vars : String → Option MachineRep) (h : a.typeOf vars = none) : c.typeOf vars = none := by
  unfold castCode at hc
  split at hc
  · cases hc
    simp [Code.typeOf, h]
  · cases hk : classifyUnary none i o with
    | panic => rw [hk] at hc; cases hc
    | ok cls =>
      rw [hk, bind_ok_ok] at hc
      cases cls <;> cases hc
      · exact h
      · exact call_none _ _ _ h
      · exact call_none _ _ _ h

/-- **C60, compiling.** Code is made for every expression whose types are right, without failing an assertion.  The code
has the type of the expression if and only if the expression is `Supported`; otherwise Rust rejects it. -/
theorem C60_compiles {vars : String → Option MachineRep} {t : TypedExpr} (ht : WellTyped vars t) :
    ∃ c, synthesize t = .ok c ∧ (Supported t → c.typeOf vars = some t.getType) ∧
      (¬ Supported t → c.typeOf vars = none) := by
  have bin : ∀ (t : MachineRep) (op : BasicBinOp) (o : Option MachineRep) (l r : TypedExpr)
      (_ : ∃ c, synthesize l = .ok c ∧ (Supported l → c.typeOf vars = some l.getType) ∧
        (¬ Supported l → c.typeOf vars = none))
      (_ : ∃ c, synthesize r = .ok c ∧ (Supported r → c.typeOf vars = some r.getType) ∧
        (¬ Supported r → c.typeOf vars = none)),
      ∃ c, synthesize (.binOp t ((l.getType, r.getType), t) op o l r) = .ok c ∧
        (Supported (.binOp t ((l.getType, r.getType), t) op o l r) → c.typeOf vars = some t) ∧
        (¬ Supported (.binOp t ((l.getType, r.getType), t) op o l r) → c.typeOf vars = none) := by
    rintro t op o l r ⟨a, a1, a2, a3⟩ ⟨b, b1, b2, b3⟩
    obtain ⟨c, c1, c2, c3⟩ := binCode_good op l.getType r.getType t a b
    refine ⟨c, by rw [synthesize_bin, a1, bind_ok_ok, b1, bind_ok_ok]; exact c1, ?_, ?_⟩
    · rintro ⟨h1, h2, h3⟩
      exact (c3 h3).1 vars (a2 h1) (b2 h2)
    · intro hn
      by_cases h1 : Supported l
      · by_cases h2 : Supported r
        · by_cases h3 : Mixed64 l.getType r.getType t
          · exact c2 h3 vars
          · exact absurd ⟨h1, h2, h3⟩ hn
        · exact binCode_none c1 vars (.inr (b3 h2))
      · exact binCode_none c1 vars (.inl (a3 h1))
  have un : ∀ (t : MachineRep) (op : BasicUnaryOp) (o : Option MachineRep) (e : TypedExpr)
      (_ : ∃ c, synthesize e = .ok c ∧ (Supported e → c.typeOf vars = some e.getType) ∧
        (¬ Supported e → c.typeOf vars = none)),
      ∃ c, synthesize (.unaryOp t (e.getType, t) op o e) = .ok c ∧
        (Supported (.unaryOp t (e.getType, t) op o e) → c.typeOf vars = some t) ∧
        (¬ Supported (.unaryOp t (e.getType, t) op o e) → c.typeOf vars = none) := by
    rintro t op o e ⟨a, a1, a2, a3⟩
    obtain ⟨c, c1, c2, c3⟩ := unCode_good op e.getType t a
    refine ⟨c, by rw [synthesize_un, a1, bind_ok_ok]; exact c1, ?_, ?_⟩
    · rintro ⟨h1, h2⟩
      exact (c3 h2).1 vars (a2 h1)
    · intro hn
      by_cases h1 : Supported e
      · by_cases h2 : unSupported op e.getType t
        · exact absurd ⟨h1, h2⟩ hn
        · exact c2 h2 vars
      · exact unCode_none c1 vars (a3 h1)
  induction ht with
  | var h => exact ⟨_, rfl, fun _ => h, fun h => absurd trivial h⟩
  | @named t v =>
    refine ⟨_, rfl, fun h => ?_, fun h => ?_⟩
    · show (if t.inRange v then some t else none) = some t
      rw [if_pos ((inRange_iff _ _).2 h)]
    · show (if t.inRange v then some t else none) = none
      rw [if_neg (fun h' => h ((inRange_iff _ _).1 h'))]
  | @unnamed t v =>
    refine ⟨_, rfl, fun h => ?_, fun h => ?_⟩
    · show (if t.inRange v then some t else none) = some t
      rw [if_pos ((inRange_iff _ _).2 h)]
    · show (if t.inRange v then some t else none) = none
      rw [if_neg (fun h' => h ((inRange_iff _ _).1 h'))]
  | @bin t op l r _ _ hl hr ih1 ih2 =>
    have := bin t op none l r ih1 ih2
    rw [hl, hr] at this
    exact this
  | @binTo t op l r _ _ ih1 ih2 => exact bin t op (some t) l r ih1 ih2
  | @un t op e _ he ih =>
    have := un t op none e ih
    rw [he] at this
    exact this
  | @unTo t op e _ ih => exact un t op (some t) e ih
  | @cast t bw e _ _ ih =>
    obtain ⟨a, a1, a2, a3⟩ := ih
    cases bw with
    | true =>
      refine ⟨.asCast a t, by rw [synthesize_cast, a1]; rfl, fun h => ?_, fun h => ?_⟩
      · simp only [Code.typeOf, a2 h, Option.isSome_some, if_true]
        rfl
      · exact castCode_none (bw := true) (i := e.getType) (o := t) rfl vars (a3 h)
    | false =>
      obtain ⟨c, c1, c2, _⟩ := castCode_good e.getType t a
      refine ⟨c, by rw [synthesize_cast, a1]; exact c1, fun h => c2 vars (a2 h), fun h => castCode_none c1 vars (a3 h)⟩

/-! ### values -/

theorem exact_mem {env : String → Int} {t : TypedExpr} {n : Int} (h : Exact env t n) : t.getType.Mem n := by
  cases h <;> assumption

theorem result_ok {e : Eval} {n : Int} (h : Eval.result e = .ok n) : e = .direct n := by
  cases e <;> cases h
  rfl

theorem bind_run {r : Outcome EvalErr Int} {g : Int → Outcome EvalErr Int} {n : Int} (h : r.bind g = .ok n) :
    ∃ x, r = .ok x ∧ g x = .ok n := Outcome.bind_eq_ok.1 h

/-- **C60, values.** A number that the code yields is the exact result of the expression.  (With overflow unchecked,
provided that no least number is negated within its type.) -/
theorem C60_sound {vars : String → Option MachineRep} {env : String → Int}
    (henv : ∀ x t, vars x = some t → t.Mem (env x)) (dbg : Bool) {t : TypedExpr} (ht : WellTyped vars t)
    (hs : Supported t) (hn : dbg = true ∨ NoNegMin env t) {c : Code} (hc : synthesize t = .ok c) {n : Int}
    (hr : c.run dbg env = .ok n) : Exact env t n := by
  have bin : ∀ (t : MachineRep) (op : BasicBinOp) (o : Option MachineRep) (l r : TypedExpr)
      (_ : Supported l → (dbg = true ∨ NoNegMin env l) → ∀ c, synthesize l = .ok c → ∀ n, c.run dbg env = .ok n →
        Exact env l n)
      (_ : Supported r → (dbg = true ∨ NoNegMin env r) → ∀ c, synthesize r = .ok c → ∀ n, c.run dbg env = .ok n →
        Exact env r n),
      Supported (.binOp t ((l.getType, r.getType), t) op o l r) →
      (dbg = true ∨ NoNegMin env (.binOp t ((l.getType, r.getType), t) op o l r)) → ∀ c,
      synthesize (.binOp t ((l.getType, r.getType), t) op o l r) = .ok c → ∀ n, c.run dbg env = .ok n →
      Exact env (.binOp t ((l.getType, r.getType), t) op o l r) n := by
    rintro t op o l r ihl ihr ⟨s1, s2, s3⟩ hn c hc n hr
    rw [synthesize_bin] at hc
    obtain ⟨a, ha, hc⟩ := Panicky.bind_eq_ok.1 hc
    obtain ⟨b, hb, hc⟩ := Panicky.bind_eq_ok.1 hc
    obtain ⟨c', c1, _, c3⟩ := binCode_good op l.getType r.getType t a b
    rw [c1] at hc
    cases hc
    obtain ⟨_, g, g1, g2⟩ := c3 s3
    rw [g1] at hr
    obtain ⟨x, hx, hr⟩ := bind_run hr
    obtain ⟨y, hy, hr⟩ := bind_run hr
    have ex := ihl s1 (hn.imp id (·.1)) a ha x hx
    have ey := ihr s2 (hn.imp id (·.2)) b hb y hy
    obtain ⟨e, e1, e2⟩ := g2 x y (exact_mem ex) (exact_mem ey)
    rw [e1] at hr
    have := result_ok hr
    subst this
    rcases e2 with e2 | ⟨e2, _⟩
    · exact .bin ex ey e2.1 e2.2
    · cases e2
  have un : ∀ (t : MachineRep) (op : BasicUnaryOp) (o : Option MachineRep) (e : TypedExpr)
      (_ : Supported e → (dbg = true ∨ NoNegMin env e) → ∀ c, synthesize e = .ok c → ∀ n, c.run dbg env = .ok n →
        Exact env e n),
      Supported (.unaryOp t (e.getType, t) op o e) →
      (dbg = true ∨ NoNegMin env (.unaryOp t (e.getType, t) op o e)) → ∀ c,
      synthesize (.unaryOp t (e.getType, t) op o e) = .ok c → ∀ n, c.run dbg env = .ok n →
      Exact env (.unaryOp t (e.getType, t) op o e) n := by
    rintro t op o e ih ⟨s1, s2⟩ hn c hc n hr
    rw [synthesize_un] at hc
    obtain ⟨a, ha, hc⟩ := Panicky.bind_eq_ok.1 hc
    obtain ⟨c', c1, _, c3⟩ := unCode_good op e.getType t a
    rw [c1] at hc
    cases hc
    obtain ⟨g, g1, g2⟩ := (c3 s2).2 dbg
    rw [g1] at hr
    obtain ⟨x, hx, hr⟩ := bind_run hr
    have ex := ih s1 (hn.imp id (·.1)) a ha x hx
    rcases g2 x (exact_mem ex) with ⟨v, v1, v2⟩ | ⟨k1, k2, k3, k4, k5⟩ | ⟨_, _, _, _, k5⟩
    · rw [v1] at hr
      have := result_ok hr
      subst this
      obtain ⟨w1, w2⟩ := v2
      cases w1
      exact .un ex w2
    · rcases hn with hn | hn
      · rw [hn] at k5
        rw [k5] at hr
        cases hr
      · have := hn.2 k1 (by rw [← k2]; exact k3) k2
        rw [← k2, ← k4] at this
        exact absurd ex this
    · rw [k5] at hr
      cases hr
  induction ht generalizing c n with
  | @var t x h =>
    cases hc
    cases hr
    exact .var (henv _ _ h)
  | named =>
    cases hc
    cases hr
    exact .const (c := ⟨_, _⟩) hs
  | unnamed =>
    cases hc
    cases hr
    exact .const (c := ⟨_, _⟩) hs
  | @bin t op l r _ _ hl hr' ih1 ih2 =>
    have := bin t op none l r (fun h1 h2 c hc n hr => ih1 h1 h2 hc hr) (fun h1 h2 c hc n hr => ih2 h1 h2 hc hr)
    rw [hl, hr'] at this
    exact this hs hn c hc n hr
  | @binTo t op l r _ _ ih1 ih2 =>
    exact bin t op (some t) l r (fun h1 h2 c hc n hr => ih1 h1 h2 hc hr) (fun h1 h2 c hc n hr => ih2 h1 h2 hc hr)
      hs hn c hc n hr
  | @un t op e _ he ih =>
    have := un t op none e (fun h1 h2 c hc n hr => ih h1 h2 hc hr)
    rw [he] at this
    exact this hs hn c hc n hr
  | @unTo t op e _ ih => exact un t op (some t) e (fun h1 h2 c hc n hr => ih h1 h2 hc hr) hs hn c hc n hr
  | @cast t bw e _ _ ih =>
    rw [synthesize_cast] at hc
    obtain ⟨a, ha, hc⟩ := Panicky.bind_eq_ok.1 hc
    cases bw with
    | true =>
      cases hc
      obtain ⟨x, hx, hr⟩ := bind_run (r := a.run dbg env) (g := fun x => .ok (rustAs t x)) hr
      cases hr
      have ex := ih hs hn ha hx
      exact .bitwise ex (rustAs_spec t x).1 (rustAs_spec t x).2
    | false =>
      obtain ⟨c', c1, _, c3⟩ := castCode_good e.getType t a
      rw [c1] at hc
      cases hc
      obtain ⟨g, g1, g2⟩ := c3 dbg
      rw [g1] at hr
      obtain ⟨x, hx, hr⟩ := bind_run hr
      have ex := ih hs hn ha hx
      obtain ⟨v, v1, v2⟩ := g2 x (exact_mem ex)
      rw [v1] at hr
      have := result_ok hr
      subst this
      obtain ⟨w1, w2⟩ := v2
      cases w1
      exact .cast ex w2

theorem exactIn_direct {o : MachineRep} {e : Eval} {n : Int} (h : ExactIn o (some n) e) (hm : o.Mem n) :
    e = .direct n := by
  cases e with
  | nan => cases h
  | direct m => obtain ⟨h1, _⟩ := h; cases h1; rfl
  | indirect m => obtain ⟨h1, h2⟩ := h; cases h1; exact absurd hm h2

theorem neg_min_not_mem {o : MachineRep} (h : o.isSigned = true) : ¬ o.Mem (-o.asBounds.min) := by
  intro hm
  rw [asBounds_mem] at hm
  have : ∀ o ∈ allReps, o.isSigned = true → o.asBounds.max < -o.asBounds.min := by decide +kernel
  have := this o (mem_allReps o) h
  omega

/-- **C60, completeness.** If computing the expression exactly keeps every part within its type, the code yields the
result.  Missing: the corner cases of `NoCorner`, refuted below. -/
theorem C60_complete_partial {vars : String → Option MachineRep} {env : String → Int} (dbg : Bool) {t : TypedExpr}
    (ht : WellTyped vars t) (hs : Supported t) (hn : NoCorner dbg env t) {c : Code} (hc : synthesize t = .ok c)
    {n : Int} (hx : Exact env t n) : c.run dbg env = .ok n := by
  have bin : ∀ (t : MachineRep) (op : BasicBinOp) (o : Option MachineRep) (l r : TypedExpr)
      (_ : Supported l → NoCorner dbg env l → ∀ c, synthesize l = .ok c → ∀ n, Exact env l n → c.run dbg env = .ok n)
      (_ : Supported r → NoCorner dbg env r → ∀ c, synthesize r = .ok c → ∀ n, Exact env r n → c.run dbg env = .ok n),
      Supported (.binOp t ((l.getType, r.getType), t) op o l r) →
      NoCorner dbg env (.binOp t ((l.getType, r.getType), t) op o l r) → ∀ c,
      synthesize (.binOp t ((l.getType, r.getType), t) op o l r) = .ok c → ∀ n,
      Exact env (.binOp t ((l.getType, r.getType), t) op o l r) n → c.run dbg env = .ok n := by
    rintro t op o l r ihl ihr ⟨s1, s2, s3⟩ ⟨n1, n2, n3⟩ c hc n hx
    rw [synthesize_bin] at hc
    obtain ⟨a, ha, hc⟩ := Panicky.bind_eq_ok.1 hc
    obtain ⟨b, hb, hc⟩ := Panicky.bind_eq_ok.1 hc
    obtain ⟨c', c1, _, c3⟩ := binCode_good op l.getType r.getType t a b
    rw [c1] at hc
    cases hc
    obtain ⟨_, g, g1, g2⟩ := c3 s3
    cases hx with
    | @bin _ _ _ _ _ _ x y _ ex ey hm hmem =>
      rw [g1, ihl s1 n1 a ha x ex]
      show ((b.run dbg env).bind fun y => g x y) = _
      rw [ihr s2 n2 b hb y ey]
      show g x y = _
      obtain ⟨e, e1, e2⟩ := g2 x y (exact_mem ex) (exact_mem ey)
      rw [e1]
      rcases e2 with e2 | ⟨_, h2, h3, h4, h5⟩
      · rw [hm] at e2
        rw [exactIn_direct e2 hmem]
        rfl
      · rcases h2 with rfl | rfl
        · rw [h4, h5] at hm
          have : n = -t.asBounds.min := by
            simp only [mathOp] at hm
            rw [if_neg (by decide), Int.tdiv_neg, Int.tdiv_one] at hm
            cases hm
            rfl
          rw [this] at hmem
          exact absurd hmem (neg_min_not_mem h3)
        · rw [h4] at ex
          rw [h5] at ey
          exact absurd ey (n3 rfl h3 ex)
  have un : ∀ (t : MachineRep) (op : BasicUnaryOp) (o : Option MachineRep) (e : TypedExpr)
      (_ : Supported e → NoCorner dbg env e → ∀ c, synthesize e = .ok c → ∀ n, Exact env e n → c.run dbg env = .ok n),
      Supported (.unaryOp t (e.getType, t) op o e) →
      NoCorner dbg env (.unaryOp t (e.getType, t) op o e) → ∀ c,
      synthesize (.unaryOp t (e.getType, t) op o e) = .ok c → ∀ n,
      Exact env (.unaryOp t (e.getType, t) op o e) n → c.run dbg env = .ok n := by
    rintro t op o e ih ⟨s1, s2⟩ ⟨n1, n2⟩ c hc n hx
    rw [synthesize_un] at hc
    obtain ⟨a, ha, hc⟩ := Panicky.bind_eq_ok.1 hc
    obtain ⟨c', c1, _, c3⟩ := unCode_good op e.getType t a
    rw [c1] at hc
    cases hc
    obtain ⟨g, g1, g2⟩ := (c3 s2).2 dbg
    cases hx with
    | @un _ _ _ _ _ x ex hmem =>
      rw [g1, ih s1 n1 a ha x ex]
      show g x = _
      rcases g2 x (exact_mem ex) with ⟨v, v1, v2⟩ | ⟨k1, k2, k3, k4, k5⟩ | ⟨k1, k2, k3, k4, k5⟩
      · rw [v1, exactIn_direct v2 hmem]
        rfl
      · subst k1
        rw [k4, ← k2] at hmem
        exact absurd hmem (neg_min_not_mem k3)
      · rw [k4] at ex
        exact absurd ex (n2 k2 k1 k3)
  induction ht generalizing c n with
  | @var t x h =>
    cases hc
    cases hx
    rfl
  | named =>
    cases hc
    cases hx
    rfl
  | unnamed =>
    cases hc
    cases hx
    rfl
  | @bin t op l r _ _ hl hr' ih1 ih2 =>
    have := bin t op none l r (fun h1 h2 c hc n hr => ih1 h1 h2 hc hr) (fun h1 h2 c hc n hr => ih2 h1 h2 hc hr)
    rw [hl, hr'] at this
    exact this hs hn c hc n hx
  | @binTo t op l r _ _ ih1 ih2 =>
    exact bin t op (some t) l r (fun h1 h2 c hc n hr => ih1 h1 h2 hc hr) (fun h1 h2 c hc n hr => ih2 h1 h2 hc hr)
      hs hn c hc n hx
  | @un t op e _ he ih =>
    have := un t op none e (fun h1 h2 c hc n hr => ih h1 h2 hc hr)
    rw [he] at this
    exact this hs hn c hc n hx
  | @unTo t op e _ ih => exact un t op (some t) e (fun h1 h2 c hc n hr => ih h1 h2 hc hr) hs hn c hc n hx
  | @cast t bw e _ _ ih =>
    rw [synthesize_cast] at hc
    obtain ⟨a, ha, hc⟩ := Panicky.bind_eq_ok.1 hc
    cases hx with
    | @bitwise _ _ _ _ x _ ex hmem hmod =>
      cases hc
      show ((a.run dbg env).bind fun x => .ok (rustAs t x)) = _
      rw [ih hs hn ha ex]
      show Outcome.ok (rustAs t x) = _
      refine congrArg _ (mem_unique t _ _ (rustAs_spec t x).1 hmem ?_)
      have := (rustAs_spec t x).2
      have e : rustAs t x - n = (rustAs t x - x) - (n - x) := by omega
      rw [e, Int.sub_emod, this, hmod]
      rfl
    | @cast _ _ _ _ x ex hmem =>
      obtain ⟨c', c1, _, c3⟩ := castCode_good e.getType t a
      rw [c1] at hc
      cases hc
      obtain ⟨g, g1, g2⟩ := c3 dbg
      rw [g1, ih hs hn ha ex]
      show g n = _
      obtain ⟨v, v1, v2⟩ := g2 n (exact_mem ex)
      rw [v1, exactIn_direct v2 hmem]
      rfl

/-- **C60, values with the same code.** Both directions together: the number the code yields is the exact result, and it
yields one whenever there is one. -/
theorem C60_iff_partial {vars : String → Option MachineRep} {env : String → Int}
    (henv : ∀ x t, vars x = some t → t.Mem (env x)) (dbg : Bool) {t : TypedExpr} (ht : WellTyped vars t)
    (hs : Supported t) (h1 : dbg = true ∨ NoNegMin env t) (h2 : NoCorner dbg env t) (n : Int) :
    ∃ c, synthesize t = .ok c ∧ c.typeOf vars = some t.getType ∧ (c.run dbg env = .ok n ↔ Exact env t n) := by
  obtain ⟨c, c1, c2, _⟩ := C60_compiles ht
  exact ⟨c, c1, c2 hs, C60_sound henv dbg ht hs h1 c1, C60_complete_partial dbg ht hs h2 c1⟩

/-- **C60 and the interpreter.** If computing the expression exactly keeps every part within its type, and no remainder
is taken by a negative number, evaluation by the interpreter gives the same number. -/
theorem C60_eval_partial {vars : String → Option MachineRep} {env : String → Int} {scope : String → Out StrictValue}
    (hsc : ∀ x t, vars x = some t → scope x = .ok ⟨⟨env x, .concrete t⟩, true⟩) {t : TypedExpr}
    (ht : WellTyped vars t) (hr : NoNegRem env t) {n : Int} (hx : Exact env t n) :
    ∃ c, t.toExpr.eval scope = .ok c ∧ c.val = n ∧
      ((untyped t.toExpr = true ∧ c.rep = .auto) ∨ (untyped t.toExpr = false ∧ c.rep = .concrete t.getType)) := by
  have bin : ∀ (op : BasicBinOp) (o : Option MachineRep) (a b : TypedConst) (n : Int), mathOp op a.val b.val = some n →
      (op = .rem → 0 ≤ b.val) → (o = none → a.rep = b.rep ∨ a.rep = .auto ∨ b.rep = .auto) →
      ∃ c, evalBinOp op o a b = .ok c ∧ c.val = n ∧
        c.rep = (o.map NumRep.concrete).getD (if a.rep = .auto then b.rep else a.rep) := by
    intro op o a b n hm hp ho
    have tail : ∀ m : Int, ∃ c : TypedConst, (match o with
        | some rep => Out.ok (⟨m, .concrete rep⟩ : TypedConst)
        | none =>
          if a.rep = b.rep ∨ b.rep.isAuto then .ok ⟨m, a.rep⟩
          else if a.rep.isAuto then .ok ⟨m, b.rep⟩
          else .err (.ambiguous a.rep b.rep)) = .ok c ∧ c.val = m ∧
        c.rep = (o.map NumRep.concrete).getD (if a.rep = .auto then b.rep else a.rep) := by
      intro m
      cases o with
      | some t => exact ⟨_, rfl, rfl, rfl⟩
      | none =>
        obtain ⟨av, ar⟩ := a
        obtain ⟨bv, br⟩ := b
        have := ho rfl
        cases ar <;> cases br <;> simp_all [NumRep.isAuto]
    cases op with
    | add => cases hm; exact tail _
    | sub => cases hm; exact tail _
    | mul => cases hm; exact tail _
    | div =>
      simp only [mathOp] at hm
      split at hm
      · cases hm
      · rename_i h0
        cases hm
        have := tail (a.val.tdiv b.val)
        simp only [evalBinOp, if_neg h0]
        exact this
    | rem =>
      simp only [mathOp] at hm
      split at hm
      · cases hm
      · rename_i h0
        cases hm
        have := tail (a.val.tmod b.val)
        simp only [evalBinOp, if_pos (show b.val > 0 by have := hp rfl; omega)]
        exact this
  have un : ∀ (op : BasicUnaryOp) (o : Option MachineRep) (a : TypedConst), ∃ c, evalUnaryOp op o a = .ok c ∧
      c.val = mathUn op a.val ∧ c.rep = (match o with | some t => .concrete t | none => a.rep) := by
    intro op o a
    cases op <;> cases o <;> exact ⟨_, rfl, rfl, rfl⟩
  induction ht generalizing n with
  | @var t x h =>
    cases hx
    refine ⟨⟨env x, .concrete t⟩, ?_, rfl, .inr ⟨rfl, rfl⟩⟩
    show (scope x).bind _ = _
    rw [hsc x t h]
    rfl
  | named =>
    cases hx
    exact ⟨_, rfl, rfl, .inr ⟨rfl, rfl⟩⟩
  | unnamed =>
    cases hx
    exact ⟨_, rfl, rfl, .inl ⟨rfl, rfl⟩⟩
  | @bin t op l r _ _ hl hr' ih1 ih2 =>
    cases hx with
    | @bin _ _ _ _ _ _ x y _ ex ey hm hmem =>
      obtain ⟨a, a1, a2, a3⟩ := ih1 hr.1 ex
      obtain ⟨b, b1, b2, b3⟩ := ih2 hr.2.1 ey
      rw [hl] at a3
      rw [hr'] at b3
      obtain ⟨c, c1, c2, c3⟩ := bin op none a b n (by rw [a2, b2]; exact hm)
        (fun h => by rw [b2]; exact hr.2.2 h y ey)
        (fun _ => by
          rcases a3 with ⟨_, a3⟩ | ⟨_, a3⟩ <;> rcases b3 with ⟨_, b3⟩ | ⟨_, b3⟩ <;> rw [a3, b3] <;> simp)
      refine ⟨c, ?_, c2, ?_⟩
      · show (l.toExpr.eval scope).bind _ = _
        rw [a1]
        show (r.toExpr.eval scope).bind _ = _
        rw [b1]
        exact c1
      · show ((untyped l.toExpr && untyped r.toExpr) = true ∧ _) ∨ ((untyped l.toExpr && untyped r.toExpr) = false ∧
          c.rep = .concrete t)
        rw [c3]
        rcases a3 with ⟨a4, a3⟩ | ⟨a4, a3⟩ <;> rcases b3 with ⟨b4, b3⟩ | ⟨b4, b3⟩ <;> rw [a3, b3, a4, b4] <;> simp
  | @binTo t op l r _ _ ih1 ih2 =>
    cases hx with
    | @bin _ _ _ _ _ _ x y _ ex ey hm hmem =>
      obtain ⟨a, a1, a2, a3⟩ := ih1 hr.1 ex
      obtain ⟨b, b1, b2, b3⟩ := ih2 hr.2.1 ey
      obtain ⟨c, c1, c2, c3⟩ := bin op (some t) a b n (by rw [a2, b2]; exact hm)
        (fun h => by rw [b2]; exact hr.2.2 h y ey) (fun h => by cases h)
      refine ⟨c, ?_, c2, .inr ⟨rfl, c3⟩⟩
      show (l.toExpr.eval scope).bind _ = _
      rw [a1]
      show (r.toExpr.eval scope).bind _ = _
      rw [b1]
      exact c1
  | @un t op e _ he ih =>
    cases hx with
    | @un _ _ _ _ _ x ex hmem =>
      obtain ⟨a, a1, a2, a3⟩ := ih hr ex
      obtain ⟨c, c1, c2, c3⟩ := un op none a
      refine ⟨c, ?_, by rw [c2, a2], ?_⟩
      · show (e.toExpr.eval scope).bind _ = _
        rw [a1]
        exact c1
      · rw [he] at a3
        rw [c3]
        exact a3
  | @unTo t op e _ ih =>
    cases hx with
    | @un _ _ _ _ _ x ex hmem =>
      obtain ⟨a, a1, a2, a3⟩ := ih hr ex
      obtain ⟨c, c1, c2, c3⟩ := un op (some t) a
      refine ⟨c, ?_, by rw [c2, a2], .inr ⟨rfl, c3⟩⟩
      show (e.toExpr.eval scope).bind _ = _
      rw [a1]
      exact c1
  | @cast t bw e _ hu ih =>
    cases hx with
    | @cast _ _ _ _ x ex hmem =>
      obtain ⟨a, a1, a2, a3⟩ := ih hr ex
      refine ⟨⟨a.val, .concrete t⟩, ?_, a2, .inr ⟨rfl, rfl⟩⟩
      show (e.toExpr.eval scope).bind _ = _
      rw [a1]
      rfl
    | @bitwise _ _ _ _ x _ ex hmem hmod =>
      obtain ⟨a, a1, a2, a3⟩ := ih hr ex
      have key : bitwiseCast a.val a.rep t = .ok n := by
        rcases a3 with ⟨u, a3⟩ | ⟨_, a3⟩
        · have hm := exact_mem ex
          rw [hu u] at hm
          have : n = x := mem_unique t _ _ hmem hm hmod
          rw [a3, a2, this]
          rfl
        · obtain ⟨m, m1, m2, m3, m4⟩ := C37_bitwiseCast e.getType t x (exact_mem ex)
          rw [a3, a2, m1, m4 n hmem hmod]
      refine ⟨⟨n, .concrete t⟩, ?_, rfl, .inr ⟨rfl, rfl⟩⟩
      show (e.toExpr.eval scope).bind _ = _
      rw [a1]
      show (match bitwiseCast a.val a.rep t with | .ok n => _ | .panic => _) = _
      rw [key]

/-- **C60.** A number that the code yields is the one the interpreter gives for the expression. -/
theorem C60_agree_partial {vars : String → Option MachineRep} {env : String → Int} {scope : String → Out StrictValue}
    (henv : ∀ x t, vars x = some t → t.Mem (env x) ∧ scope x = .ok ⟨⟨env x, .concrete t⟩, true⟩) (dbg : Bool)
    {t : TypedExpr} (ht : WellTyped vars t) (hs : Supported t) (hn : dbg = true ∨ NoNegMin env t)
    (hr : NoNegRem env t) {c : Code} (hc : synthesize t = .ok c) {n : Int} (h : c.run dbg env = .ok n) :
    ∃ v, t.toExpr.eval scope = .ok v ∧ v.val = n ∧ t.getType.Mem v.val := by
  have hx := C60_sound (fun x t h => (henv x t h).1) dbg ht hs hn hc h
  obtain ⟨v, v1, v2, _⟩ := C60_eval_partial (fun x t h => (henv x t h).2) ht hr hx
  exact ⟨v, v1, v2, v2 ▸ exact_mem hx⟩

/-- What elaboration accepts is well typed, so that the theorems above apply to it. -/
theorem C60_elaborated {e : Expr} {t : TypedExpr} (h : Tc.elaborate 4 e = .ok t) (vars : String → Option MachineRep) :
    WellTyped vars t ∧ t.toExpr = e := by
  obtain ⟨h1, h2⟩ := Tc.C41_sound e t 4 (Nat.le_refl _) h
  refine ⟨?_, h1⟩
  clear h h1
  induction h2 with
  | named => exact .named
  | unnamed => exact .unnamed
  | bin _ _ h1 h2 i1 i2 => exact .bin i1 i2 h1 h2
  | binTo _ _ _ _ i1 i2 => exact .binTo i1 i2
  | un _ h i => exact .un i h
  | unTo _ _ i => exact .unTo i
  | cast _ h i => exact .cast i h

/-! ### cases -/

/-- `(x : u8 + 200) : u16 * -3 as i16 …` with a variable, mixed types and casts -/
def caseExpr : TypedExpr :=
  .binOp I32 ((U16, I8), I32) .mul (some I32)
    (.binOp U16 ((U8, U8), U16) .add (some U16) (.numVar U8 "x") (.const U8 ⟨200, .concrete U8⟩))
    (.cast I8 (U8, I8) I8 true (.const U8 ⟨253, .concrete U8⟩))

def caseVars : String → Option MachineRep := fun x => if x = "x" then some U8 else none
def caseEnv : String → Int := fun _ => 100

theorem caseTyped : WellTyped caseVars caseExpr :=
  .binTo (.binTo (.var rfl) .named) (.cast .named (fun h => by cases h))

theorem caseSupported : Supported caseExpr := by
  refine ⟨⟨trivial, by simp [Supported, MachineRep.Mem, BitWidth.bits], ?_⟩, by simp [Supported, MachineRep.Mem, BitWidth.bits], ?_⟩
  · rintro ⟨h, _⟩; revert h; decide
  · rintro ⟨h, _⟩; revert h; decide

/-- (100 + 200) * (253 as i8) is -900 -/
example : ∃ c, synthesize caseExpr = .ok c ∧ c.typeOf caseVars = some I32 ∧ c.run true caseEnv = .ok (-900) ∧
    Exact caseEnv caseExpr (-900) := by
  have hr : ∃ c, synthesize caseExpr = .ok c ∧ c.typeOf caseVars = some I32 ∧ c.run true caseEnv = .ok (-900) :=
    ⟨_, rfl, by decide +kernel, by decide +kernel⟩
  obtain ⟨c, h1, h2, h3⟩ := hr
  refine ⟨c, h1, h2, h3, C60_sound (vars := caseVars) ?_ true caseTyped caseSupported (.inl rfl) h1 h3⟩
  intro x t h
  simp only [caseVars] at h
  split at h
  · cases h; simp [caseEnv, MachineRep.Mem, BitWidth.bits]
  · cases h

/-- the conditions of the partial theorems are met -/
example : NoCorner true caseEnv caseExpr ∧ NoNegRem caseEnv caseExpr ∧ NoNegMin caseEnv caseExpr := by
  simp [caseExpr, NoCorner, NoNegRem, NoNegMin]

/-! ### what fails -/

/-- Expressions that elaboration accepts and whose code Rust does not: a successor; a negation from `u8` to `i8`; a sum
of a `u64` and a `u8` in `u64`; a constant outside the type it names. -/
theorem C60_compiles_refuted : ∀ e ∈ ([.unaryOp .intSucc none (.const ⟨1, .concrete U8⟩),
      .unaryOp .negate (some I8) (.const ⟨1, .concrete U8⟩),
      .binOp .add (some U64) (.const ⟨1, .concrete U64⟩) (.const ⟨1, .concrete U8⟩),
      .const ⟨256, .concrete U8⟩] : List Expr),
    ∃ t c, Tc.elaborate 4 e = .ok t ∧ synthesize t = .ok c ∧ ∀ vars, c.typeOf vars = none := by
  intro e he
  simp only [List.mem_cons, List.not_mem_nil, or_false] at he
  rcases he with rfl | rfl | rfl | rfl
  · exact ⟨.unaryOp U8 (U8, U8) .intSucc none (.const U8 ⟨1, .concrete U8⟩), _, by decide +kernel, rfl, fun _ => rfl⟩
  · exact ⟨.unaryOp I8 (U8, I8) .negate (some I8) (.const U8 ⟨1, .concrete U8⟩), _, by decide +kernel, rfl,
      fun _ => rfl⟩
  · exact ⟨.binOp U64 ((U64, U8), U64) .add (some U64) (.const U64 ⟨1, .concrete U64⟩) (.const U8 ⟨1, .concrete U8⟩), _,
      by decide +kernel, rfl, fun _ => rfl⟩
  · exact ⟨.const U8 ⟨256, .concrete U8⟩, _, by decide +kernel, rfl, fun _ => rfl⟩

/-- Without checks of overflow, negating -128 in `i8` yields -128; the interpreter gives 128. -/
theorem C60_unchecked_refuted : ∃ t c v, Tc.elaborate 4 t.toExpr = .ok t ∧ synthesize t = .ok c ∧
    c.typeOf (fun _ => none) = some t.getType ∧ c.run false (fun _ => 0) = .ok (-128) ∧
    t.toExpr.eval voidScope = .ok v ∧ v.val = 128 ∧ Supported t :=
  ⟨.unaryOp I8 (I8, I8) .negate none (.const I8 ⟨-128, .concrete I8⟩), _, _, by decide +kernel, rfl, rfl, rfl, rfl, rfl,
    by simp [Supported, MachineRep.Mem, BitWidth.bits], by simp [TypedExpr.getType, I8]⟩

/-- An exact result that the code does not yield: the remainder of -128 by -1 in `i8`, with or without checks; and, with
checks, the absolute value of -128 in `u8`, which panics. -/
theorem C60_complete_refuted :
    (∃ t c, Tc.elaborate 4 t.toExpr = .ok t ∧ synthesize t = .ok c ∧ Supported t ∧ Exact (fun _ => 0) t 0 ∧
      ∀ dbg, c.run dbg (fun _ => 0) = .err .notANumber) ∧
    (∃ t c, Tc.elaborate 4 t.toExpr = .ok t ∧ synthesize t = .ok c ∧ Supported t ∧ Exact (fun _ => 0) t 128 ∧
      c.run true (fun _ => 0) = .panic) := by
  constructor
  · refine ⟨.binOp I8 ((I8, I8), I8) .rem none (.const I8 ⟨-128, .concrete I8⟩) (.const I8 ⟨-1, .concrete I8⟩), _, by decide +kernel,
      rfl, ⟨by simp [Supported, MachineRep.Mem, BitWidth.bits], by simp [Supported, MachineRep.Mem, BitWidth.bits], ?_⟩,
      .bin (.const (by simp [MachineRep.Mem, BitWidth.bits])) (.const (by simp [MachineRep.Mem, BitWidth.bits]))
        (by decide) (by simp [MachineRep.Mem, BitWidth.bits]), fun _ => rfl⟩
    rintro ⟨h, _⟩
    revert h
    decide
  · refine ⟨.unaryOp U8 (I8, U8) .absVal (some U8) (.const I8 ⟨-128, .concrete I8⟩), _, by decide +kernel, rfl,
      ⟨by simp [Supported, MachineRep.Mem, BitWidth.bits], .inl rfl⟩,
      .un (op := .absVal) (.const (by simp [MachineRep.Mem, BitWidth.bits]))
        (by simp [MachineRep.Mem, BitWidth.bits, mathUn]), rfl⟩

/-- The interpreter gives 200 for `(200 + 100) - 100` in `u8`; the code stops at 300. -/
theorem C60_intermediate_refuted : ∃ t c v, Tc.elaborate 4 t.toExpr = .ok t ∧ synthesize t = .ok c ∧
    c.typeOf (fun _ => none) = some t.getType ∧ t.toExpr.eval voidScope = .ok v ∧ v.val = 200 ∧ t.getType.Mem v.val ∧
    ∀ dbg, c.run dbg (fun _ => 0) = .err (.indirect 300) :=
  ⟨.binOp U8 ((U8, U8), U8) .sub none (.binOp U8 ((U8, U8), U8) .add none (.const U8 ⟨200, .concrete U8⟩)
    (.const U8 ⟨100, .concrete U8⟩)) (.const U8 ⟨100, .concrete U8⟩), _, _, by decide +kernel, rfl, rfl, rfl, rfl,
    by simp [MachineRep.Mem, BitWidth.bits, TypedExpr.getType], fun _ => rfl⟩

/-- The code yields 1 for the remainder of 7 by -2 in `i8`; the interpreter refuses remainders by negative numbers. -/
theorem C60_remainder_refuted : ∃ t c, Tc.elaborate 4 t.toExpr = .ok t ∧ synthesize t = .ok c ∧
    c.typeOf (fun _ => none) = some t.getType ∧ (∀ dbg, c.run dbg (fun _ => 0) = .ok 1) ∧
    t.toExpr.eval voidScope = .err .remainderNonPositive :=
  ⟨.binOp I8 ((I8, I8), I8) .rem none (.const I8 ⟨7, .concrete I8⟩) (.const I8 ⟨-2, .concrete I8⟩), _, by decide +kernel, rfl, rfl,
    fun _ => rfl, rfl⟩

end Num
end Doodle
