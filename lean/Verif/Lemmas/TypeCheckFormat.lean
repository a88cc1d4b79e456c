import Verif.Spec.TypeCheckFormat
import Verif.Lemmas.TypeCheckSound
import Verif.Lemmas.FormatSound

/-! What the inference of the type checker establishes about the values of formats. -/

namespace Doodle
namespace Tc

open Num (MachineRep BitWidth)
open Grammar

/-- what the lemmas are about: a module, the types of the parameters of its items, the values that count as
members of types, and the items whose expressions are exact -/
structure Setup where
  m : Module
  ats : List (List ValueType)
  rej : Format → Scope Format → ReadCtxt → Prop
  K : Slack
  S : Nat → Prop
  E : Nat → Prop

variable {J : Setup}

/-- every value of the format has the type -/
def FSound (J : Setup) (σ : Assignment) (sc : UScope) (f : Format) (T : ValueType) : Prop :=
  ∀ s c v c' k, sc.Agrees J.K σ s → Parses J.m J.rej f s c v c' k → v.HasType J.K T

/-- the names of an item with the types of its parameters -/
def params (it : Item) (ts : List ValueType) : List (String × ValueKind) :=
  (it.args.zip ts).map fun a => (a.1, .value a.2)

/-- every value of the item has the type -/
def LevelSound (J : Setup) (l : Nat) (T : ValueType) : Prop :=
  J.E l → ∀ it ts es vs c v c' k, J.m.items[l]? = some it → J.ats[l]? = some ts →
    Entries J.K es (params it ts) → AllViews vs →
    Parses J.m J.rej it.format (.multi (es ++ vs) .empty) c v c' k → v.HasType J.K T

/-- the same for all items inferred so far -/
def LevelsOk (J : Setup) (σ : Assignment) (lv : Levels) : Prop :=
  ∀ l w, NMap.get l lv = some w → LevelSound J l (σ w)

/-- the scope agrees with every call of the item -/
def ItemScope (J : Setup) (σ : Assignment) (l : Nat) (sc : UScope) : Prop :=
  ∀ it ts es vs, J.m.items[l]? = some it → J.ats[l]? = some ts → Entries J.K es (params it ts) → AllViews vs →
    sc.Agrees J.K σ (.multi (es ++ vs) .empty : Scope Format)

/-- what inferring an item establishes -/
def LevelHyp (J : Setup) (level : Nat → Ctxt → Levels → TcM (Nat × Levels)) : Prop :=
  ∀ l cx lv, J.S l → Yields (level l cx lv) (fun _ => True)
    (fun r σ => ItemScope J σ l cx.scope → LevelsOk J σ lv → LevelsOk J σ r.2 ∧ LevelSound J l (σ r.1))

/-- what inferring a format establishes -/
def FormatFact (J : Setup) (f : Format) (cx : Ctxt) (lv : Levels) (r : Nat × Levels) (σ : Assignment) : Prop :=
  LevelsOk J σ lv → LevelsOk J σ r.2 ∧ (f.Exact J.K J.E → FSound J σ cx.scope f (σ r.1))

theorem denotes_sound {σ : Assignment} {sc : UScope} {e : Expr} {T : ValueType} {s : Scope Format} {v : Value}
    {K : Slack} (h : SoundAt Format K σ sc e T) (ha : sc.Agrees K σ s) (hd : Denotes e s v) : v.HasType K T := by
  obtain ⟨w, hw, rfl⟩ := Expr.evalValue_eq hd
  exact (h s w ha hw).coerceMapped

theorem unit_typed {K : Slack} : Value.unit.HasType K (.tuple []) := by
  simp only [Value.unit, Value.HasType]
  exact ⟨_, rfl, by simp only [Value.HaveTypes]⟩

variable {o : Orders} {n : Nat}

theorem yields_view (ho : o.Lists) (cx : Ctxt) : ∀ (x : ViewExpr), x.Solid →
    Yields (traverseView o n cx x) (fun _ => True) (fun _ _ => True)
  | .var name, _ => by
    simp only [traverseView]
    split
    · exact yields_ret.to fun _ _ _ => trivial
    · exact yields_fail
  | .offset base e, h => by
    simp only [ViewExpr.Solid] at h
    simp only [traverseView]
    exact ((yields_view ho cx base h.1).bind fun _ _ =>
      (yields_expr (δ := Format) (K := .nominal) ho (by decide) e cx.scope h.2).bind fun v _ =>
      yields_baseset ho).to fun _ _ _ => trivial

theorem yields_views (ho : o.Lists) (cx : Ctxt) : ∀ (ls : List String) (xs : List ViewExpr) (own : List String),
    ViewExpr.SolidList xs → Yields (inferViews o n cx ls xs own) (fun _ => True) (fun _ _ => True)
  | [], xs, own, _ => by
    simp only [inferViews]; exact yields_ret.to fun _ _ _ => trivial
  | l :: ls, [], own, _ => by
    simp only [inferViews]; exact yields_ret.to fun _ _ _ => trivial
  | l :: ls, x :: xs, own, h => by
    simp only [ViewExpr.SolidList] at h
    simp only [inferViews]
    refine ((yields_view ho cx x h.1).bind (Q := fun _ _ _ => True) fun _ _ => ?_).to fun _ _ _ => trivial
    split
    · exact yields_panic
    · exact yields_views ho cx ls xs (l :: own) h.2

theorem yields_dyn (ho : o.Lists) (cx : Ctxt) {ls : Expr} {vs : Option Expr} (h1 : ls.Solid)
    (h2 : ∀ e, vs = some e → e.Solid) : Yields (inferDyn o n cx ls vs) (fun _ => True) (fun _ _ => True) := by
  cases vs with
  | none =>
    simp only [inferDyn]
    exact (yields_newVar.bind fun v _ =>
      (yields_expr (δ := Format) (K := .nominal) ho (by decide) ls cx.scope h1).bind fun a _ =>
      yields_newVar.bind fun c _ => (yields_elem ho).bind fun _ _ =>
      (yields_varC ho (c := .elem (.u UintSet.short8)) trivial).bind fun _ _ =>
      (yields_varC ho (c := .elem (.u (UintSet.anyDefault .b16))) trivial).bind fun _ _ =>
      yields_ret).to fun _ _ _ => trivial
  | some e =>
    simp only [inferDyn]
    exact (yields_newVar.bind fun v _ =>
      (yields_expr (δ := Format) (K := .nominal) ho (by decide) ls cx.scope h1).bind fun a _ =>
      yields_newVar.bind fun c _ => (yields_elem ho).bind fun _ _ =>
      (yields_varC ho (c := .elem (.u UintSet.short8)) trivial).bind fun _ _ =>
      (yields_expr (δ := Format) (K := .nominal) ho (by decide) e cx.scope (h2 e rfl)).bind fun a _ =>
      yields_newVar.bind fun c _ => (yields_elem ho).bind fun _ _ =>
      (yields_varC ho (c := .elem (.u UintSet.short8)) trivial).bind fun _ _ =>
      (yields_varC ho (c := .elem (.u (UintSet.anyDefault .b16))) trivial).bind fun _ _ =>
      yields_ret).to fun _ _ _ => trivial

/-- the scope of a call: the parameters in reverse order, in front of the scope of the caller -/
def ArgsFact (K : Slack) (sc0 : UScope) (names : List String) (ts : List ValueType) (es : List Expr) (sc : UScope)
    (sc' : UScope) (σ : Assignment) : Prop :=
  ∃ ws : UScope, sc' = ws.reverse ++ sc ∧ ws.map (fun w => (w.1, σ w.2)) = names.zip ts ∧
    (Expr.ExactList K es → ∀ (s : Scope Format) as, sc0.Agrees K σ s → ArgsAre s (names.zip es) as →
      Entries K as ((names.zip ts).map fun a => (a.1, .value a.2)))

theorem yields_args (ho : o.Lists) {K : Slack} (hf : K.fallbacks ≠ .typed) (cx : Ctxt) :
    ∀ (names : List String) (ts : List ValueType) (es : List Expr) (sc : UScope), names.length = ts.length →
    es.length = names.length → ValueType.RigidList ts → Expr.SolidList es →
    Yields (inferArgs o n cx (names.zip ts) es sc) (fun _ => True) (ArgsFact K cx.scope names ts es sc)
  | [], ts, es, sc, h1, h2, h3, h4 => by
    simp only [List.zip_nil_left, inferArgs]
    refine yields_ret.to ?_
    rintro _ σ rfl
    refine ⟨[], rfl, rfl, fun _ s as _ h => ?_⟩
    simp only [List.zip_nil_left] at h
    cases h
    exact .nil
  | l :: names, [], es, sc, h1, h2, h3, h4 => by simp at h1
  | l :: names, t :: ts, [], sc, h1, h2, h3, h4 => by simp at h2
  | l :: names, t :: ts, e :: es, sc, h1, h2, h3, h4 => by
    simp only [ValueType.RigidList] at h3
    simp only [Expr.SolidList] at h4
    simp only [List.zip_cons_cons, inferArgs]
    refine ((yields_expr (δ := Format) (K := K) ho hf e cx.scope h4.1).bind fun v _ =>
      (yields_varV ho t v (ValueType.Rigid.solid h3.1)).bind fun _ _ =>
      yields_args ho hf cx names ts es ((l, v) :: sc) (by simpa using h1) (by simpa using h2) h3.2 h4.2).to ?_
    rintro sc' σ ⟨v, hv, _, ht, ws, hsc, hws, hent⟩
    refine ⟨(l, v) :: ws, by rw [hsc]; simp, ?_, fun hex s as ha has => ?_⟩
    · rw [List.map_cons, hws, ht h3.1, List.zip_cons_cons]
    · simp only [Expr.ExactList] at hex
      cases has with
      | cons hd has =>
        refine .cons ?_ (hent hex.2 s _ ha has)
        rw [← ht h3.1]
        exact denotes_sound (hv hex.1) ha hd

theorem entries_agree {K : Slack} {σ : Assignment} {es : List (String × ViewOrValue)} {Γ : List (String × ValueKind)}
    (h : Entries K es Γ) : ∀ {ws sc : UScope}, Γ = ws.map (fun w => (w.1, .value (σ w.2))) →
    ∀ {x w v}, UScope.get (ws ++ sc) x = some w → Scope.findValue x es = some v → v.HasType K (σ w) := by
  induction h with
  | nil => intro ws sc _ x w v _ hv; simp only [Scope.findValue, reduceCtorEq] at hv
  | cons hv _ ih =>
    intro ws sc he x w v hg hx
    cases ws with
    | nil => simp only [List.map_nil, reduceCtorEq] at he
    | cons a ws =>
      obtain ⟨l, u⟩ := a
      simp only [List.map_cons, List.cons.injEq, Prod.mk.injEq, ValueKind.value.injEq] at he
      obtain ⟨⟨rfl, rfl⟩, he⟩ := he
      rw [List.cons_append, UScope.get_cons] at hg
      simp only [Scope.findValue] at hx
      split at hg
      · rename_i e
        rw [if_pos e.symm] at hx
        cases hg; cases hx
        exact hv
      · rename_i e
        rw [if_neg (Ne.symm e)] at hx
        exact ih he hg hx

theorem itemScope_args {σ : Assignment} {l : Nat} {it : Item} {ts : List ValueType} {ws sc : UScope}
    (hi : J.m.items[l]? = some it) (ht : J.ats[l]? = some ts)
    (hw : ws.map (fun w => (w.1, σ w.2)) = it.args.zip ts) : ItemScope J σ l (ws.reverse ++ sc) := by
  intro it' ts' es vs hi' ht' he hv x w v hg hx
  rw [hi] at hi'; cases hi'
  rw [ht] at ht'; cases ht'
  simp only [Scope.getValue] at hx
  rw [List.reverse_append, hv.reverse.find] at hx
  split at hx
  · rename_i y hy
    cases hx
    refine entries_agree he.reverse (ws := ws.reverse) (sc := sc) ?_ hg hy
    unfold params
    rw [← hw, List.map_map, ← List.map_reverse]
    rfl
  · cases hx

theorem accum_sound {K : Slack} {σ : Assignment} {sc : UScope} {done update : Expr} {A T : ValueType}
    (hu : LamSound Format K σ sc update (.tuple [A, T]) A) {s : Scope Format} (hs : sc.Agrees K σ s)
    {a : Value} {seen vs : List Value} {r : Value} (h : AccumTo done update s a seen vs r)
    (ha : a.HasType K A) (hvs : ∀ v ∈ vs, v.HasType K T) : r.HasType K A := by
  induction h with
  | stop _ => exact ha
  | step _ h2 _ ih =>
    refine ih ?_ fun v hv => hvs v (List.mem_cons_of_mem _ hv)
    refine hu s _ _ hs ?_ h2
    simp only [Value.HasType]
    exact ⟨_, rfl, by simp only [Value.HaveTypes]; exact ⟨ha, hvs _ (List.mem_cons_self ..), trivial⟩⟩

theorem many_sound {σ : Assignment} {sc : UScope} {f : Format} {T : ValueType} (hf : FSound J σ sc f T) :
    ∀ {s : Scope Format} {c c' : ReadCtxt} {vs : List Value} {k : Nat}, sc.Agrees J.K σ s →
    ParsesMany J.m J.rej f s c vs c' k → ∀ v ∈ vs, v.HasType J.K T
  | _, _, _, _, _, _, .mnil => fun _ h => nomatch h
  | _, _, _, _, _, ha, .mcons hp hq => fun v hv => by
    rcases List.mem_cons.mp hv with e | hv
    · rw [e]; exact hf _ _ _ _ _ ha hp
    · exact many_sound hf ha hq v hv

theorem each_sound {σ : Assignment} {sc : UScope} {l : String} {x : Nat} {f : Format} {T : ValueType}
    (hf : FSound J σ ((l, x) :: sc) f T) :
    ∀ {s : Scope Format} {c c' : ReadCtxt} {is vs : List Value} {k : Nat}, sc.Agrees J.K σ s →
    (∀ i ∈ is, i.HasType J.K (σ x)) → ParsesEach J.m J.rej l f s is c vs c' k → ∀ v ∈ vs, v.HasType J.K T
  | _, _, _, _, _, _, _, _, .enil => fun _ h => nomatch h
  | _, _, _, _, _, _, ha, hi, .econs hp hq => fun v hv => by
    rcases List.mem_cons.mp hv with e | hv
    · rw [e]; exact hf _ _ _ _ _ (ha.single (hi _ (List.mem_cons_self ..))) hp
    · exact each_sound hf ha (fun i h => hi i (List.mem_cons_of_mem _ h)) hq v hv

/-- what inferring the alternatives of a union establishes -/
def UnionFact (J : Setup) (fs : List Format) (v : Nat) (cx : Ctxt) (lv lv' : Levels) (σ : Assignment) : Prop :=
  LevelsOk J σ lv → LevelsOk J σ lv' ∧
    (Format.ExactList J.K J.E fs → ∀ (i : Nat) (f : Format), fs[i]? = some f → FSound J σ cx.scope f (σ v))

/-- what inferring the components of a tuple establishes -/
def ComponentsFact (J : Setup) (fs : List Format) (cx : Ctxt) (lv : Levels) (r : List UType × Levels)
    (σ : Assignment) : Prop :=
  LevelsOk J σ lv → LevelsOk J σ r.2 ∧ (Format.ExactList J.K J.E fs → ∀ s c vs c' k, cx.scope.Agrees J.K σ s →
    ParsesFields J.m J.rej fs s c vs c' k → Value.HaveTypes J.K vs (UType.instList σ r.1))

/-- what inferring the elements of a sequence establishes -/
def SequenceFact (J : Setup) (fs : List Format) (e : Nat) (cx : Ctxt) (lv lv' : Levels) (σ : Assignment) : Prop :=
  LevelsOk J σ lv → LevelsOk J σ lv' ∧ (Format.ExactList J.K J.E fs → ∀ s c vs c' k, cx.scope.Agrees J.K σ s →
    ParsesFields J.m J.rej fs s c vs c' k → ∀ v ∈ vs, v.HasType J.K (σ e))

/-- what inferring the branches of a match establishes -/
def CasesFact (J : Setup) (bs : List (Pattern × Format)) (h v : Nat) (cx : Ctxt) (lv lv' : Levels)
    (σ : Assignment) : Prop :=
  LevelsOk J σ lv → LevelsOk J σ lv' ∧ (Format.ExactCases J.K J.E bs → ∀ (s : Scope Format) (x : Value) (i : Nat) p f b c y c' k,
    cx.scope.Agrees J.K σ s → x.HasType J.K (σ h) → bs[i]? = some (p, f) → x.matchesPat p = some b →
    Parses J.m J.rej f (s.withBindings b) c y c' k → y.HasType J.K (σ v))

theorem yields_known {α β : Type} {a : α} {f : α → TcM β} {F : β → Prop} {P : β → Assignment → Prop} (h : Yields (f a) F P) :
    Yields (TcM.ofPanicky (.ok a) >>= f) F P := h
section
variable (level : Nat → Ctxt → Levels → TcM (Nat × Levels))

set_option maxHeartbeats 4000000 in
mutual
theorem yields_format (ho : o.Lists) (hf : J.K.fallbacks ≠ .typed) (hS : J.m.SolidOn J.ats J.S) (HL : LevelHyp J level) :
    ∀ (f : Format) (cx : Ctxt) (lv : Levels), f.Solid J.m J.S →
    Yields (inferFormatWith o n J.m J.ats level f cx lv) (fun _ => True) (FormatFact J f cx lv)
  | .peek f, cx, lv, hs => by
    simp only [Format.Solid] at hs
    simp only [inferFormatWith]
    refine ((yields_newVar).bind fun v _ => (yields_format ho hf hS HL f cx lv hs).bind fun r _ => (yields_varU ho (t := UType.var r.1) trivial).bind fun _ _ => yields_ret).to ?_
    rintro _ σ ⟨v, _, r, hr, _, hv, rfl⟩ hl
    obtain ⟨hl', hr⟩ := hr hl
    refine ⟨hl', fun hex s c x c' k ha hp => ?_⟩
    simp only [Format.Exact] at hex
    simp only [UType.inst] at hv
    cases hp
    rw [hv]; exact hr hex _ _ _ _ _ ha ‹_›
  | .bits f, cx, lv, hs => by
    simp only [Format.Solid] at hs
    simp only [inferFormatWith]
    refine ((yields_newVar).bind fun v _ => (yields_format ho hf hS HL f cx lv hs).bind fun r _ => (yields_varU ho (t := UType.var r.1) trivial).bind fun _ _ => yields_ret).to ?_
    rintro _ σ ⟨v, _, r, hr, _, hv, rfl⟩ hl
    obtain ⟨hl', hr⟩ := hr hl
    refine ⟨hl', fun hex s c x c' k ha hp => ?_⟩
    simp only [Format.Exact] at hex
    simp only [UType.inst] at hv
    cases hp
    rw [hv]; exact hr hex _ _ _ _ _ ha ‹_›
  | .hint f, cx, lv, hs => by
    simp only [Format.Solid] at hs
    simp only [inferFormatWith]
    refine ((yields_newVar).bind fun v _ => (yields_format ho hf hS HL f cx lv hs).bind fun r _ => (yields_pair ho).bind fun _ _ => yields_ret).to ?_
    rintro _ σ ⟨v, _, r, hr, _, hv, rfl⟩ hl
    obtain ⟨hl', hr⟩ := hr hl
    refine ⟨hl', fun hex s c x c' k ha hp => ?_⟩
    simp only [Format.Exact] at hex
    cases hp
    rw [hv]; exact hr hex _ _ _ _ _ ha ‹_›
  | .enforce f, cx, lv, hs => by
    simp only [Format.Solid] at hs
    simp only [inferFormatWith]
    refine ((yields_newVar).bind fun v _ => (yields_format ho hf hS HL f cx lv hs).bind fun r _ => (yields_pair ho).bind fun _ _ => yields_ret).to ?_
    rintro _ σ ⟨v, _, r, hr, _, hv, rfl⟩ hl
    obtain ⟨hl', hr⟩ := hr hl
    refine ⟨hl', fun hex s c x c' k ha hp => ?_⟩
    simp only [Format.Exact] at hex
    cases hp
    rw [hv]; exact hr hex _ _ _ _ _ ha ‹_›
  | .slice e f, cx, lv, hs => by
    simp only [Format.Solid] at hs
    simp only [inferFormatWith]
    refine ((yields_newVar).bind fun v _ => (yields_expr (δ := Format) ho hf e cx.scope hs.1).bind fun a _ => (yields_utypeBaseset ho).bind fun _ _ => (yields_format ho hf hS HL f cx lv hs.2).bind fun r _ => (yields_varU ho (t := UType.var r.1) trivial).bind fun _ _ => yields_ret).to ?_
    rintro _ σ ⟨v, _, a, _, _, _, r, hr, _, hv, rfl⟩ hl
    obtain ⟨hl', hr⟩ := hr hl
    refine ⟨hl', fun hex s c x c' k ha hp => ?_⟩
    simp only [Format.Exact] at hex
    simp only [UType.inst] at hv
    cases hp
    rw [hv]; exact hr hex _ _ _ _ _ ha ‹_›
  | .withRelativeOffset x y f, cx, lv, hs => by
    simp only [Format.Solid] at hs
    simp only [inferFormatWith]
    refine ((yields_newVar).bind fun v _ => (yields_expr (δ := Format) ho hf x cx.scope hs.1).bind fun a _ => (yields_expr (δ := Format) ho hf y cx.scope hs.2.1).bind fun b _ => (yields_baseset ho).bind fun _ _ => (yields_pair ho).bind fun _ _ => (yields_format ho hf hS HL f cx lv hs.2.2).bind fun r _ => (yields_varU ho (t := UType.var r.1) trivial).bind fun _ _ => yields_ret).to ?_
    rintro _ σ ⟨v, _, a, _, b, _, _, _, _, _, r, hr, _, hv, rfl⟩ hl
    obtain ⟨hl', hr⟩ := hr hl
    refine ⟨hl', fun hex s c x c' k ha hp => ?_⟩
    simp only [Format.Exact] at hex
    simp only [UType.inst] at hv
    cases hp
    rw [hv]; exact hr hex _ _ _ _ _ ha ‹_›
  | .parseFromView x f, cx, lv, hs => by
    simp only [Format.Solid] at hs
    simp only [inferFormatWith]
    refine ((yields_newVar).bind fun v _ => (yields_view ho cx x hs.1).bind fun _ _ => (yields_format ho hf hS HL f cx lv hs.2).bind fun r _ => (yields_pair ho).bind fun _ _ => yields_ret).to ?_
    rintro _ σ ⟨v, _, _, _, r, hr, _, hv, rfl⟩ hl
    obtain ⟨hl', hr⟩ := hr hl
    refine ⟨hl', fun hex s c x c' k ha hp => ?_⟩
    simp only [Format.Exact] at hex
    cases hp
    rw [hv]; exact hr hex _ _ _ _ _ ha ‹_›
  | .decodeBytes e f, cx, lv, hs => by
    simp only [Format.Solid] at hs
    simp only [inferFormatWith]
    refine ((yields_newVar).bind fun v _ => (yields_expr (δ := Format) ho hf e cx.scope hs.1).bind fun a _ => (yields_format ho hf hS HL f cx lv hs.2).bind fun r _ => (yields_varU ho (t := UType.seqOf (.base (.num .b8))) trivial).bind fun _ _ => (yields_pair ho).bind fun _ _ => yields_ret).to ?_
    rintro _ σ ⟨v, _, a, _, r, hr, _, _, _, hv, rfl⟩ hl
    obtain ⟨hl', hr⟩ := hr hl
    refine ⟨hl', fun hex s c x c' k ha hp => ?_⟩
    simp only [Format.Exact] at hex
    cases hp <;> (rw [hv]; exact hr hex _ _ _ _ _ ha ‹_›)
  | .let_ x e f, cx, lv, hs => by
    simp only [Format.Solid] at hs
    simp only [inferFormatWith]
    refine ((yields_newVar).bind fun v _ => (yields_expr (δ := Format) ho hf e cx.scope hs.1).bind fun a _ => (yields_format ho hf hS HL f { cx with scope := (x, a) :: cx.scope } lv hs.2).bind fun r _ => (yields_varU ho (t := UType.var r.1) trivial).bind fun _ _ => yields_ret).to ?_
    rintro _ σ ⟨v, _, a, he, r, hr, _, hv, rfl⟩ hl
    obtain ⟨hl', hr⟩ := hr hl
    refine ⟨hl', fun hex s c x c' k ha hp => ?_⟩
    simp only [Format.Exact] at hex
    simp only [UType.inst] at hv
    cases hp
    rw [hv]; exact hr hex.2 _ _ _ _ _ (ha.single (denotes_sound (he hex.1) ha ‹_›)) ‹_›
  | .letView x f, cx, lv, hs => by
    simp only [Format.Solid] at hs
    simp only [inferFormatWith]
    refine ((yields_newVar).bind fun v _ => (yields_format ho hf hS HL f { cx with views := x :: cx.views } lv hs).bind fun r _ => (yields_varU ho (t := UType.var r.1) trivial).bind fun _ _ => yields_ret).to ?_
    rintro _ σ ⟨v, _, r, hr, _, hv, rfl⟩ hl
    obtain ⟨hl', hr⟩ := hr hl
    refine ⟨hl', fun hex s c x c' k ha hp => ?_⟩
    simp only [Format.Exact] at hex
    simp only [UType.inst] at hv
    cases hp
    rename_i hp
    rw [hv]
    refine hr hex _ _ _ _ _ ?_ hp
    exact fun x w v hg hv => ha x w v hg hv
  | .dynamic x ls vs f, cx, lv, hs => by
    simp only [Format.Solid] at hs
    simp only [inferFormatWith]
    refine ((yields_newVar).bind fun v _ => (yields_dyn ho cx hs.1 hs.2.1).bind fun d _ => (yields_format ho hf hS HL f { cx with dyns := (x, d) :: cx.dyns } lv hs.2.2).bind fun r _ => (yields_varU ho (t := UType.var r.1) trivial).bind fun _ _ => yields_ret).to ?_
    rintro _ σ ⟨v, _, d, _, r, hr, _, hv, rfl⟩ hl
    obtain ⟨hl', hr⟩ := hr hl
    refine ⟨hl', fun hex s c x c' k ha hp => ?_⟩
    simp only [Format.Exact] at hex
    simp only [UType.inst] at hv
    cases hp
    rename_i hp
    rw [hv]
    refine hr hex _ _ _ _ _ ?_ hp
    exact fun x w v hg hv => ha x w v hg hv
  | .where_ f e strict, cx, lv, hs => by
    simp only [Format.Solid] at hs
    simp only [inferFormatWith]
    refine ((yields_newVar).bind fun v _ => (yields_format ho hf hS HL f cx lv hs.1).bind fun r _ => (yields_lambda (δ := Format) ho hf e cx.scope hs.2).bind fun io _ => (yields_pair ho).bind fun _ _ => (yields_varU ho (t := UType.var r.1) trivial).bind fun _ _ => (yields_varU ho (t := UType.base .bool) trivial).bind fun _ _ => yields_ret).to ?_
    rintro _ σ ⟨v, _, r, hr, io, _, _, _, _, hv, _, _, rfl⟩ hl
    obtain ⟨hl', hr⟩ := hr hl
    refine ⟨hl', fun hex s c x c' k ha hp => ?_⟩
    simp only [Format.Exact] at hex
    simp only [UType.inst] at hv
    cases hp <;> (rw [hv]; exact hr hex _ _ _ _ _ ha ‹_›)
  | .map f e, cx, lv, hs => by
    simp only [Format.Solid] at hs
    simp only [inferFormatWith]
    refine ((yields_newVar).bind fun v _ => (yields_format ho hf hS HL f cx lv hs.1).bind fun r _ => (yields_lambda (δ := Format) ho hf e cx.scope hs.2).bind fun io _ => (yields_varU ho (t := UType.var r.1) trivial).bind fun _ _ => (yields_pair ho).bind fun _ _ => yields_ret).to ?_
    rintro _ σ ⟨v, _, r, hr, io, hio, _, hi, _, hv, rfl⟩ hl
    obtain ⟨hl', hr⟩ := hr hl
    refine ⟨hl', fun hex s c x c' k ha hp => ?_⟩
    simp only [Format.Exact] at hex
    simp only [UType.inst] at hi
    cases hp with
    | map hp hse =>
      simp only [Value.HasType]
      rw [hv]
      exact hio hex.2 s _ _ ha (hi ▸ hr hex.1 _ _ _ _ _ ha hp) hse
  | .phantom f, cx, lv, hs => by
    simp only [Format.Solid] at hs
    simp only [inferFormatWith]
    refine ((yields_newVar).bind fun v _ => (yields_format ho hf hS HL f cx lv hs).bind fun r _ => (yields_varU ho (t := UType.phantom (.var r.1)) trivial).bind fun _ _ => yields_ret).to ?_
    rintro _ σ ⟨v, _, r, hr, _, hv, rfl⟩ hl
    obtain ⟨hl', hr⟩ := hr hl
    refine ⟨hl', fun hex s c x c' k ha hp => ?_⟩
    simp only [Format.Exact] at hex
    simp only [UType.inst] at hv
    cases hp
    rw [hv]
    simp only [Value.HasType]
    exact ⟨_, rfl⟩
  | .endOfInput, cx, lv, hs => by
    simp only [inferFormatWith]
    refine ((yields_init ho (t := .tuple []) trivial id).bind fun v _ => yields_ret).to ?_
    rintro _ σ ⟨v, hv, rfl⟩ hl
    refine ⟨hl, fun hex s c x c' k ha hp => ?_⟩
    cases hp
    rw [hv]
    exact unit_typed
  | .skipRemainder, cx, lv, hs => by
    simp only [inferFormatWith]
    refine ((yields_init ho (t := .tuple []) trivial id).bind fun v _ => yields_ret).to ?_
    rintro _ σ ⟨v, hv, rfl⟩ hl
    refine ⟨hl, fun hex s c x c' k ha hp => ?_⟩
    cases hp
    rw [hv]
    exact unit_typed
  | .align a, cx, lv, hs => by
    simp only [inferFormatWith]
    refine ((yields_init ho (t := .tuple []) trivial id).bind fun v _ => yields_ret).to ?_
    rintro _ σ ⟨v, hv, rfl⟩ hl
    refine ⟨hl, fun hex s c x c' k ha hp => ?_⟩
    cases hp
    rw [hv]
    exact unit_typed
  | .peekNot f, cx, lv, hs => by
    simp only [Format.Solid] at hs
    simp only [inferFormatWith]
    refine ((yields_init ho (t := .tuple []) trivial id).bind fun v _ => (yields_format ho hf hS HL f cx lv hs).bind fun r _ => yields_ret).to ?_
    rintro _ σ ⟨v, hv, r, hr, rfl⟩ hl
    obtain ⟨hl', hr⟩ := hr hl
    refine ⟨hl', fun hex s c x c' k ha hp => ?_⟩
    cases hp
    rw [hv]
    exact unit_typed
  | .fail, cx, lv, hs => by simp only [Format.Solid] at hs
  | .byte bs, cx, lv, hs => by
    simp only [Format.Solid] at hs
    simp only [inferFormatWith, hs, Bool.false_eq_true, if_false]
    refine ((yields_init ho (t := .base (.num .b8)) trivial id).bind fun v _ => yields_ret).to ?_
    rintro _ σ ⟨v, hv, rfl⟩ hl
    refine ⟨hl, fun hex s c x c' k ha hp => ?_⟩
    cases hp
    rw [hv]
    simp only [UType.inst, Value.u8, Value.HasType]
  | .variant l f, cx, lv, hs => by
    simp only [Format.Solid] at hs
    simp only [inferFormatWith]
    refine ((yields_newVar).bind fun v _ => (yields_format ho hf hS HL f cx lv hs).bind fun r _ => (yields_variant ho (t := .var r.1) trivial).bind fun _ _ => yields_ret).to ?_
    rintro _ σ ⟨v, _, r, hr, _, hv, rfl⟩ hl
    obtain ⟨hl', hr⟩ := hr hl
    refine ⟨hl', fun hex s c x c' k ha hp => ?_⟩
    simp only [Format.Exact] at hex
    obtain ⟨bs, U, hb, hg, hU⟩ := hv
    simp only [UType.inst] at hU
    cases hp
    rw [hb]
    simp only [Value.HasType]
    exact ⟨bs, U, rfl, hg, hU ▸ hr hex _ _ _ _ _ ha ‹_›⟩
  | .union fs, cx, lv, hs => by
    simp only [Format.Solid] at hs
    simp only [inferFormatWith]
    refine ((yields_newVar).bind fun v _ => (yields_union ho hf hS HL fs v cx lv hs).bind fun lv' _ => yields_ret).to ?_
    rintro _ σ ⟨v, _, lv', hr, rfl⟩ hl
    obtain ⟨hl', hr⟩ := hr hl
    refine ⟨hl', fun hex s c x c' k ha hp => ?_⟩
    simp only [Format.Exact] at hex
    cases hp
    simp only [Value.HasType]
    exact hr hex _ _ ‹_› _ _ _ _ _ ha ‹_›
  | .unionNondet fs, cx, lv, hs => by
    simp only [Format.Solid] at hs
    simp only [inferFormatWith]
    refine ((yields_newVar).bind fun v _ => (yields_union ho hf hS HL fs v cx lv hs).bind fun lv' _ => yields_ret).to ?_
    rintro _ σ ⟨v, _, lv', hr, rfl⟩ hl
    obtain ⟨hl', hr⟩ := hr hl
    refine ⟨hl', fun hex s c x c' k ha hp => ?_⟩
    simp only [Format.Exact] at hex
    cases hp
    simp only [Value.HasType]
    exact hr hex _ _ ‹_› _ _ _ _ _ ha ‹_›
  | .tuple fs, cx, lv, hs => by
    simp only [Format.Solid] at hs
    simp only [inferFormatWith]
    refine (yields_newVar.bind fun v _ => (yields_components ho hf hS HL fs cx lv hs).bind fun r hfm =>
      (yields_varU ho (t := UType.tuple r.1) hfm).bind fun _ _ => yields_ret).to ?_
    rintro _ σ ⟨v, _, r, hr, _, hv, rfl⟩ hl
    obtain ⟨hl', hr⟩ := hr hl
    refine ⟨hl', fun hex s c x c' k ha hp => ?_⟩
    simp only [Format.Exact] at hex
    simp only [UType.inst] at hv
    cases hp
    rw [hv]
    simp only [Value.HasType]
    exact ⟨_, rfl, hr hex _ _ _ _ _ ha ‹_›⟩
  | .sequence fs, cx, lv, hs => by
    simp only [Format.Solid] at hs
    simp only [inferFormatWith]
    refine ((yields_newVar).bind fun v _ => (yields_newVar).bind fun e _ => (yields_sequence ho hf hS HL fs e cx lv hs).bind fun lv' _ => (yields_varU ho (t := UType.seqOf (.var e)) trivial).bind fun _ _ => yields_ret).to ?_
    rintro _ σ ⟨v, _, e, _, lv', hr, _, hv, rfl⟩ hl
    obtain ⟨hl', hr⟩ := hr hl
    refine ⟨hl', fun hex s c x c' k ha hp => ?_⟩
    simp only [Format.Exact] at hex
    simp only [UType.seqOf, UType.inst] at hv
    cases hp
    rw [hv]
    exact seq_typed (hr hex _ _ _ _ _ ha ‹_›)
  | .repeat_ f, cx, lv, hs => by
    simp only [Format.Solid] at hs
    simp only [inferFormatWith]
    refine ((yields_newVar).bind fun v _ => (yields_format ho hf hS HL f cx lv hs).bind fun r _ => (yields_varU ho (t := UType.seqOf (.var r.1)) trivial).bind fun _ _ => yields_ret).to ?_
    rintro _ σ ⟨v, _, r, hr, _, hv, rfl⟩ hl
    obtain ⟨hl', hr⟩ := hr hl
    refine ⟨hl', fun hex s c x c' k ha hp => ?_⟩
    simp only [Format.Exact] at hex
    simp only [UType.seqOf, UType.inst] at hv
    cases hp
    rw [hv]
    exact seq_typed (many_sound (hr hex) ha ‹_›)
  | .repeat1 f, cx, lv, hs => by
    simp only [Format.Solid] at hs
    simp only [inferFormatWith]
    refine ((yields_newVar).bind fun v _ => (yields_format ho hf hS HL f cx lv hs).bind fun r _ => (yields_varU ho (t := UType.seqOf (.var r.1)) trivial).bind fun _ _ => yields_ret).to ?_
    rintro _ σ ⟨v, _, r, hr, _, hv, rfl⟩ hl
    obtain ⟨hl', hr⟩ := hr hl
    refine ⟨hl', fun hex s c x c' k ha hp => ?_⟩
    simp only [Format.Exact] at hex
    simp only [UType.seqOf, UType.inst] at hv
    cases hp
    rw [hv]
    exact seq_typed (many_sound (hr hex) ha ‹_›)
  | .repeatCount e f, cx, lv, hs => by
    simp only [Format.Solid] at hs
    simp only [inferFormatWith]
    refine ((yields_newVar).bind fun v _ => (yields_expr (δ := Format) ho hf e cx.scope hs.1).bind fun a _ => (yields_utypeBaseset ho).bind fun _ _ => (yields_format ho hf hS HL f cx lv hs.2).bind fun r _ => (yields_varU ho (t := UType.seqOf (.var r.1)) trivial).bind fun _ _ => yields_ret).to ?_
    rintro _ σ ⟨v, _, a, _, _, _, r, hr, _, hv, rfl⟩ hl
    obtain ⟨hl', hr⟩ := hr hl
    refine ⟨hl', fun hex s c x c' k ha hp => ?_⟩
    simp only [Format.Exact] at hex
    simp only [UType.seqOf, UType.inst] at hv
    cases hp
    rw [hv]
    exact seq_typed (many_sound (hr hex) ha ‹_›)
  | .repeatBetween x y f, cx, lv, hs => by
    simp only [Format.Solid] at hs
    simp only [inferFormatWith]
    refine ((yields_newVar).bind fun v _ => (yields_expr (δ := Format) ho hf x cx.scope hs.1).bind fun a _ => (yields_expr (δ := Format) ho hf y cx.scope hs.2.1).bind fun b _ => (yields_utypeBaseset ho).bind fun _ _ => (yields_pair ho).bind fun _ _ => (yields_format ho hf hS HL f cx lv hs.2.2).bind fun r _ => (yields_varU ho (t := UType.seqOf (.var r.1)) trivial).bind fun _ _ => yields_ret).to ?_
    rintro _ σ ⟨v, _, a, _, b, _, _, _, _, _, r, hr, _, hv, rfl⟩ hl
    obtain ⟨hl', hr⟩ := hr hl
    refine ⟨hl', fun hex s c x c' k ha hp => ?_⟩
    simp only [Format.Exact] at hex
    simp only [UType.seqOf, UType.inst] at hv
    cases hp
    rw [hv]
    exact seq_typed (many_sound (hr hex) ha ‹_›)
  | .repeatUntilLast e f, cx, lv, hs => by
    simp only [Format.Solid] at hs
    simp only [inferFormatWith]
    refine ((yields_newVar).bind fun v _ => (yields_lambda (δ := Format) ho hf e cx.scope hs.1).bind fun io _ => (yields_format ho hf hS HL f cx lv hs.2).bind fun r _ => (yields_varU ho (t := UType.var r.1) trivial).bind fun _ _ => (yields_varU ho (t := UType.base .bool) trivial).bind fun _ _ => (yields_varU ho (t := UType.seqOf (.var r.1)) trivial).bind fun _ _ => yields_ret).to ?_
    rintro _ σ ⟨v, _, io, _, r, hr, _, _, _, _, _, hv, rfl⟩ hl
    obtain ⟨hl', hr⟩ := hr hl
    refine ⟨hl', fun hex s c x c' k ha hp => ?_⟩
    simp only [Format.Exact] at hex
    simp only [UType.seqOf, UType.inst] at hv
    cases hp
    rw [hv]
    exact seq_typed (many_sound (hr hex) ha ‹_›)
  | .repeatUntilSeq e f, cx, lv, hs => by
    simp only [Format.Solid] at hs
    simp only [inferFormatWith]
    refine ((yields_newVar).bind fun v _ => (yields_lambda (δ := Format) ho hf e cx.scope hs.1).bind fun io _ => (yields_format ho hf hS HL f cx lv hs.2).bind fun r _ => (yields_varU ho (t := UType.seqOf (.var r.1)) trivial).bind fun _ _ => (yields_varU ho (t := UType.base .bool) trivial).bind fun _ _ => (yields_varU ho (t := UType.seqOf (.var r.1)) trivial).bind fun _ _ => yields_ret).to ?_
    rintro _ σ ⟨v, _, io, _, r, hr, _, _, _, _, _, hv, rfl⟩ hl
    obtain ⟨hl', hr⟩ := hr hl
    refine ⟨hl', fun hex s c x c' k ha hp => ?_⟩
    simp only [Format.Exact] at hex
    simp only [UType.seqOf, UType.inst] at hv
    cases hp
    rw [hv]
    exact seq_typed (many_sound (hr hex) ha ‹_›)
  | .accumUntil done update init ty f, cx, lv, hs => by
    simp only [Format.Solid] at hs
    simp only [inferFormatWith]
    refine ((yields_newVar).bind fun v _ => (yields_lambda (δ := Format) ho hf done cx.scope hs.1).bind fun d _ => (yields_lambda (δ := Format) ho hf update cx.scope hs.2.1).bind fun u _ => (yields_expr (δ := Format) ho hf init cx.scope hs.2.2.1).bind fun a _ => (yields_format ho hf hS HL f cx lv hs.2.2.2.2).bind fun r _ => (yields_varV ho ty a hs.2.2.2.1).bind fun _ _ => (yields_varU ho (t := UType.tuple [.var a, .seqOf (.var r.1)]) (by simp only [UType.Firm, UType.FirmList, UType.seqOf, and_self])).bind fun _ _ => (yields_varU ho (t := UType.base .bool) trivial).bind fun _ _ => (yields_varU ho (t := UType.tuple [.var a, .var r.1]) (by simp only [UType.Firm, UType.FirmList, and_self])).bind fun _ _ => (yields_pair ho).bind fun _ _ => (yields_pair ho).bind fun _ _ => yields_ret).to ?_
    rintro _ σ ⟨v, _, d, _, u, hu, a, he, r, hr, _, _, _, hd1, _, _, _, hu1, _, hu2, _, hv, rfl⟩ hl
    obtain ⟨hl', hr⟩ := hr hl
    refine ⟨hl', fun hex s c x c' k ha hp => ?_⟩
    simp only [Format.Exact] at hex
    simp only [UType.inst, UType.instList, UType.seqOf] at hd1 hu1
    have hu := hu hex.1
    rw [hu1, hu2] at hu
    cases hp with
    | accumUntil h0 hp hacc =>
      have hm := many_sound (hr hex.2.2) ha hp
      rw [hv, hd1]
      simp only [Value.HasType]
      refine ⟨_, rfl, ?_⟩
      simp only [Value.HaveTypes]
      exact ⟨accum_sound hu ha hacc (denotes_sound (he hex.2.1) ha h0) hm, seq_typed hm, trivial⟩
  | .forEach e l f, cx, lv, hs => by
    simp only [Format.Solid] at hs
    simp only [inferFormatWith]
    refine ((yields_newVar).bind fun v _ => (yields_expr (δ := Format) ho hf e cx.scope hs.1).bind fun a _ => (yields_newVar).bind fun x _ => (yields_elem ho).bind fun _ _ => (yields_format ho hf hS HL f { cx with scope := (l, x) :: cx.scope } lv hs.2).bind fun r _ => (yields_varU ho (t := UType.seqOf (.var r.1)) trivial).bind fun _ _ => yields_ret).to ?_
    rintro _ σ ⟨v, _, a, he, y, _, _, hy, r, hr, _, hv, rfl⟩ hl
    obtain ⟨hl', hr⟩ := hr hl
    refine ⟨hl', fun hex s c x c' k ha hp => ?_⟩
    simp only [Format.Exact] at hex
    simp only [UType.seqOf, UType.inst] at hv
    cases hp with
    | forEach hit hp =>
      obtain ⟨w, q, hw, hq, rfl⟩ := hit
      have hw := denotes_sound (he hex.1) ha hw
      rw [hy] at hw
      rw [hv]
      exact seq_typed (each_sound (hr hex.2) ha (hw.items hq) hp)
  | .maybe e f, cx, lv, hs => by
    simp only [Format.Solid] at hs
    simp only [inferFormatWith]
    refine ((yields_newVar).bind fun v _ => (yields_expr (δ := Format) ho hf e cx.scope hs.1).bind fun a _ => (yields_format ho hf hS HL f cx lv hs.2).bind fun r _ => (yields_varU ho (t := UType.base .bool) trivial).bind fun _ _ => (yields_varU ho (t := UType.option (.var r.1)) trivial).bind fun _ _ => yields_ret).to ?_
    rintro _ σ ⟨v, _, a, _, r, hr, _, _, _, hv, rfl⟩ hl
    obtain ⟨hl', hr⟩ := hr hl
    refine ⟨hl', fun hex s c x c' k ha hp => ?_⟩
    simp only [Format.Exact] at hex
    simp only [UType.inst] at hv
    rw [hv]
    cases hp with
    | maybe_some _ hp => simp only [Value.HasType]; exact ⟨_, rfl, hr hex _ _ _ _ _ ha hp⟩
    | maybe_none _ => simp only [Value.HasType]; exact ⟨_, rfl⟩
  | .liftedSome f, cx, lv, hs => by
    simp only [Format.Solid] at hs
    simp only [inferFormatWith]
    refine ((yields_newVar).bind fun v _ => (yields_format ho hf hS HL f cx lv hs).bind fun r _ => (yields_varU ho (t := UType.option (.var r.1)) trivial).bind fun _ _ => yields_ret).to ?_
    rintro _ σ ⟨v, _, r, hr, _, hv, rfl⟩ hl
    obtain ⟨hl', hr⟩ := hr hl
    refine ⟨hl', fun hex s c x c' k ha hp => ?_⟩
    simp only [Format.Exact] at hex
    simp only [UType.inst] at hv
    rw [hv]
    cases hp with
    | liftedSome hp => simp only [Value.HasType]; exact ⟨_, rfl, hr hex _ _ _ _ _ ha hp⟩
  | .liftedNone, cx, lv, hs => by
    simp only [inferFormatWith]
    refine ((yields_newVar).bind fun v _ => (yields_newVar).bind fun w _ => (yields_varU ho (t := UType.option (.var w)) trivial).bind fun _ _ => yields_ret).to ?_
    rintro _ σ ⟨v, _, w, _, _, hv, rfl⟩ hl
    refine ⟨hl, fun hex s c x c' k ha hp => ?_⟩
    simp only [UType.inst] at hv
    rw [hv]
    cases hp
    simp only [Value.HasType]
    exact ⟨_, rfl⟩
  | .compute e, cx, lv, hs => by
    simp only [Format.Solid] at hs
    simp only [inferFormatWith]
    refine ((yields_newVar).bind fun v _ => (yields_expr (δ := Format) ho hf e cx.scope hs).bind fun a _ => (yields_varU ho (t := UType.var a) trivial).bind fun _ _ => yields_ret).to ?_
    rintro _ σ ⟨v, _, a, he, _, hv, rfl⟩ hl
    refine ⟨hl, fun hex s c x c' k ha hp => ?_⟩
    simp only [Format.Exact] at hex
    simp only [UType.inst] at hv
    rw [hv]
    cases hp
    exact denotes_sound (he hex) ha ‹_›
  | .match_ e bs, cx, lv, hs => by
    simp only [Format.Solid] at hs
    simp only [inferFormatWith]
    refine ((yields_newVar).bind fun v _ => (yields_expr (δ := Format) ho hf e cx.scope hs.1).bind fun a _ => (yields_cases ho hf hS HL bs a v cx lv hs.2).bind fun lv' _ => yields_ret).to ?_
    rintro _ σ ⟨v, _, a, he, lv', hr, rfl⟩ hl
    obtain ⟨hl', hr⟩ := hr hl
    refine ⟨hl', fun hex s c x c' k ha hp => ?_⟩
    simp only [Format.Exact] at hex
    cases hp with
    | match_ hh hi hm _ hp =>
      simp only [Value.HasType]
      exact hr hex.2 _ _ _ _ _ _ _ _ _ _ ha (he hex.1 _ _ ha hh) hi hm hp
  | .apply x, cx, lv, hs => by
    simp only [inferFormatWith]
    refine ((yields_newVar).bind fun v _ => (yields_ofPanicky).bind fun d _ => (yields_pair ho).bind fun _ _ => yields_ret).to ?_
    rintro _ σ ⟨v, _, d, _, _, _, rfl⟩ hl
    exact ⟨hl, fun hex => by simp only [Format.Exact] at hex⟩
  | .pos, cx, lv, hs => by
    simp only [inferFormatWith]
    refine ((yields_newVar).bind fun v _ => (yields_baseset ho).bind fun _ _ => yields_ret).to ?_
    rintro _ σ ⟨v, _, _, _, rfl⟩ hl
    exact ⟨hl, fun hex => by simp only [Format.Exact] at hex⟩
  | .letFormat f x g, cx, lv, hs => by
    simp only [Format.Solid] at hs
    simp only [inferFormatWith]
    refine (yields_newVar.bind fun v _ => (yields_format ho hf hS HL f cx lv hs.1).bind fun r _ =>
      (yields_format ho hf hS HL g { cx with scope := (x, r.1) :: cx.scope } r.2 hs.2).bind fun r' _ =>
      (yields_pair ho).bind fun _ _ => yields_ret).to ?_
    rintro _ σ ⟨v, _, r, hr, r', hr', _, hv, rfl⟩ hl
    obtain ⟨hl, hr⟩ := hr hl
    obtain ⟨hl, hr'⟩ := hr' hl
    refine ⟨hl, fun hex s c x c' k ha hp => ?_⟩
    simp only [Format.Exact] at hex
    cases hp with
    | letFormat hp hq =>
      rw [hv]
      exact hr' hex.2 _ _ _ _ _ (ha.single (hr hex.1 _ _ _ _ _ ha hp)) hq
  | .monadSeq f g, cx, lv, hs => by
    simp only [Format.Solid] at hs
    simp only [inferFormatWith]
    refine (yields_newVar.bind fun v _ => (yields_format ho hf hS HL f cx lv hs.1).bind fun r _ =>
      (yields_format ho hf hS HL g cx r.2 hs.2).bind fun r' _ =>
      (yields_pair ho).bind fun _ _ => yields_ret).to ?_
    rintro _ σ ⟨v, _, r, hr, r', hr', _, hv, rfl⟩ hl
    obtain ⟨hl, hr⟩ := hr hl
    obtain ⟨hl, hr'⟩ := hr' hl
    refine ⟨hl, fun hex s c x c' k ha hp => ?_⟩
    simp only [Format.Exact] at hex
    cases hp with
    | monadSeq hp hq =>
      rw [hv]
      exact hr' hex _ _ _ _ _ ha hq
  | .permit f e, cx, lv, hs => by
    simp only [Format.Solid] at hs
    simp only [inferFormatWith]
    refine ((yields_newVar).bind fun v _ => (yields_format ho hf hS HL f cx lv hs.1).bind fun r _ => (yields_expr (δ := Format) ho hf e cx.scope hs.2).bind fun a _ => (yields_pair ho).bind fun _ _ => (yields_pair ho).bind fun _ _ => yields_ret).to ?_
    rintro _ σ ⟨v, _, r, hr, a, he, _, hv, _, hv', rfl⟩ hl
    obtain ⟨hl', hr⟩ := hr hl
    refine ⟨hl', fun hex s c x c' k ha hp => ?_⟩
    simp only [Format.Exact] at hex
    cases hp with
    | permit hp =>
      simp only [Value.HasType]
      rw [hv]
      exact hr hex.2.1 _ _ _ _ _ ha hp
    | permit_fallback _ hd =>
      simp only [Value.HasType]
      rw [hv']
      exact ⟨hex.1, denotes_sound (he hex.2.2) ha hd⟩
  | .captureBytes x len, cx, lv, hs => by
    simp only [Format.Solid] at hs
    simp only [inferFormatWith]
    refine ((yields_newVar).bind fun v _ => (yields_view ho cx x hs.1).bind fun _ _ => (yields_newVar).bind fun w _ => (yields_expr (δ := Format) ho hf len cx.scope hs.2).bind fun a _ => (yields_baseset ho).bind fun _ _ => (yields_varU ho (t := UType.seq (.base (.num .b8)) .bufferView) trivial).bind fun _ _ => (yields_pair ho).bind fun _ _ => yields_ret).to ?_
    rintro _ σ ⟨v, _, _, _, w, _, a, _, _, _, _, hw, _, hv, rfl⟩ hl
    refine ⟨hl, fun hex s c x c' k ha hp => ?_⟩
    simp only [UType.inst] at hw
    rw [hv, hw]
    cases hp
    refine seq_typed fun v hv => ?_
    obtain ⟨b, _, rfl⟩ := List.mem_map.mp hv
    simp only [Value.u8, Value.HasType]
  | .readArray x len kind, cx, lv, hs => by
    simp only [Format.Solid] at hs
    simp only [inferFormatWith]
    refine ((yields_newVar).bind fun v _ => (yields_view ho cx x hs.1).bind fun _ _ => (yields_newVar).bind fun w _ => (yields_expr (δ := Format) ho hf len cx.scope hs.2).bind fun a _ => (yields_baseset ho).bind fun _ _ => (yields_varU ho (t := UType.seq (.base (.num kind.width)) .readArray) trivial).bind fun _ _ => (yields_pair ho).bind fun _ _ => yields_ret).to ?_
    rintro _ σ ⟨v, _, _, _, w, _, a, _, _, _, _, hw, _, hv, rfl⟩ hl
    refine ⟨hl, fun hex s c x c' k ha hp => ?_⟩
    simp only [UType.inst] at hw
    rw [hv, hw]
    cases hp
    refine seq_typed fun v hv => ?_
    obtain ⟨b, _, rfl⟩ := List.mem_map.mp hv
    simp only [arrayItem, Value.HasType]
  | .reifyView x, cx, lv, hs => by
    simp only [Format.Solid] at hs
    simp only [inferFormatWith]
    refine ((yields_newVar).bind fun v _ => (yields_view ho cx x hs).bind fun _ _ => (yields_init ho (t := .viewObj) trivial id).bind fun w _ => (yields_pair ho).bind fun _ _ => yields_ret).to ?_
    rintro _ σ ⟨v, _, _, _, w, hw, _, hv, rfl⟩ hl
    refine ⟨hl, fun hex s c x c' k ha hp => ?_⟩
    simp only [UType.inst] at hw
    rw [hv, hw]
    cases hp
    simp only [Value.HasType]
  | .itemVar l args views, cx, lv, hs => by
    simp only [Format.Solid] at hs
    obtain ⟨hSl, hlen, hargs, hviews⟩ := hs
    simp only [inferFormatWith]
    by_cases hemp : (args.isEmpty && views.isEmpty) = true
    · simp only [hemp, if_true]
      refine (yields_newVar.bind fun v _ => (HL l cx lv hSl).bind fun r _ => (yields_pair ho).bind fun _ _ =>
        yields_ret).to ?_
      rintro _ σ ⟨v, _, r, hr, _, hv, rfl⟩ hl
      simp only [Bool.and_eq_true, List.isEmpty_iff] at hemp
      obtain ⟨rfl, rfl⟩ := hemp
      have hsc : ItemScope J σ l cx.scope := by
        intro it ts es vs hi ht he hv x w y hg hy
        have h0 : it.args = [] := List.length_eq_zero_iff.mp (hlen it hi).symm
        simp only [params, h0, List.zip_nil_left, List.map_nil] at he
        cases he
        simp only [List.nil_append, Scope.getValue] at hy
        rw [← List.append_nil vs.reverse, hv.reverse.find] at hy
        simp only [Scope.findValue, reduceCtorEq] at hy
      obtain ⟨hl', hr⟩ := hr hsc hl
      refine ⟨hl', fun hex s c x c' k ha hp => ?_⟩
      simp only [Format.Exact] at hex
      cases hp with
      | itemVar hi hA hV hp =>
        rename_i it es vs
        obtain ⟨_, ts, ht, hlt, _⟩ := hS l it hSl hi
        have h0 : it.args = [] := List.length_eq_zero_iff.mp (hlen it hi).symm
        rw [h0, List.zip_nil_left] at hA
        cases hA
        rw [hv]
        refine hr hex.1 it ts _ _ _ _ _ _ hi ht ?_ (viewsAre_views hV) hp
        simp only [params, h0, List.zip_nil_left, List.map_nil]
        exact .nil
    · simp only [if_neg hemp]
      cases hi : J.m.items[l]? with
      | none =>
        simp only [Module.get, hi, Panicky.unwrap]
        intro st a st' hg h
        rw [TcM.bind_eq_ok] at h
        obtain ⟨_, _, _, h⟩ := h
        rw [TcM.bind_eq_ok] at h
        obtain ⟨_, _, h, _⟩ := h
        cases h
      | some it =>
        obtain ⟨_, ts, ht, hlt, hrig⟩ := hS l it hSl hi
        simp only [Module.get, hi, ht, Panicky.unwrap]
        refine (yields_newVar.bind fun v _ => yields_known (yields_known
          ((yields_args ho hf cx it.args ts args cx.scope hlt.symm (hlen it hi) hrig hargs).bind fun sc _ =>
          (yields_views ho cx it.views views [] hviews).bind fun vs _ =>
          (HL l ⟨sc, cx.dyns, vs ++ cx.views⟩ lv hSl).bind fun r _ => (yields_pair ho).bind fun _ _ =>
          yields_ret))).to ?_
        rintro _ σ ⟨v, _, sc, ⟨ws, rfl, hws, hent⟩, _, _, r, hr, _, hv, rfl⟩ hl
        obtain ⟨hl', hr⟩ := hr (itemScope_args hi ht hws) hl
        refine ⟨hl', fun hex s c x c' k ha hp => ?_⟩
        simp only [Format.Exact] at hex
        cases hp with
        | itemVar hi' hA hV hp =>
          rw [hi] at hi'; cases hi'
          rw [hv]
          exact hr hex.1 it ts _ _ _ _ _ _ hi ht (hent hex.2 s _ ha hA) (viewsAre_views hV) hp

theorem yields_union (ho : o.Lists) (hf : J.K.fallbacks ≠ .typed) (hS : J.m.SolidOn J.ats J.S) (HL : LevelHyp J level) :
    ∀ (fs : List Format) (v : Nat) (cx : Ctxt) (lv : Levels), Format.SolidList J.m J.S fs →
    Yields (inferUnion o n J.m J.ats level fs v cx lv) (fun _ => True) (UnionFact J fs v cx lv)
  | [], v, cx, lv, hs => by
    simp only [inferUnion]
    refine yields_ret.to ?_
    rintro _ σ rfl hl
    exact ⟨hl, fun _ i f h => by simp at h⟩
  | f :: fs, v, cx, lv, hs => by
    simp only [Format.SolidList] at hs
    have ih := fun lv => yields_union ho hf hS HL fs v cx lv hs.2
    have ihf := yields_format ho hf hS HL f cx lv hs.1
    cases f with
    | variant l g =>
      simp only [inferUnion]
      simp only [Format.Solid] at hs
      refine ((yields_format ho hf hS HL g cx lv hs.1).bind fun r _ => (yields_variant ho (t := .var r.1) trivial).bind fun _ _ =>
        ih r.2).to ?_
      rintro lv' σ ⟨r, hr, _, hv, hu⟩ hl
      obtain ⟨hl, hr⟩ := hr hl
      obtain ⟨hl, hu⟩ := hu hl
      refine ⟨hl, fun hex i f hi => ?_⟩
      simp only [Format.ExactList, Format.Exact] at hex
      cases i with
      | succ i => exact hu hex.2 i f (by simpa using hi)
      | zero =>
        simp only [List.getElem?_cons_zero, Option.some.injEq] at hi
        subst hi
        intro s c x c' k ha hp
        obtain ⟨bs, U, hb, hg, hU⟩ := hv
        simp only [UType.inst] at hU
        cases hp
        rw [hb]
        simp only [Value.HasType]
        exact ⟨bs, U, rfl, hg, hU ▸ hr hex.1 _ _ _ _ _ ha ‹_›⟩
    | _ =>
      simp only [inferUnion]
      refine (ihf.bind fun r _ => (yields_varU ho (t := UType.var r.1) trivial).bind fun _ _ => ih r.2).to ?_
      rintro lv' σ ⟨r, hr, _, hv, hu⟩ hl
      obtain ⟨hl, hr⟩ := hr hl
      obtain ⟨hl, hu⟩ := hu hl
      refine ⟨hl, fun hex i f hi => ?_⟩
      simp only [Format.ExactList] at hex
      cases i with
      | succ i => exact hu hex.2 i f (by simpa using hi)
      | zero =>
        simp only [List.getElem?_cons_zero, Option.some.injEq] at hi
        subst hi
        simp only [UType.inst] at hv
        rw [hv]
        exact hr hex.1

theorem yields_components (ho : o.Lists) (hf : J.K.fallbacks ≠ .typed) (hS : J.m.SolidOn J.ats J.S) (HL : LevelHyp J level) :
    ∀ (fs : List Format) (cx : Ctxt) (lv : Levels), Format.SolidList J.m J.S fs →
    Yields (inferComponents o n J.m J.ats level fs cx lv) (fun r => UType.FirmList r.1) (ComponentsFact J fs cx lv)
  | [], cx, lv, hs => by
    simp only [inferComponents]
    refine (yields_pure (a := (([], lv) : List UType × Levels)) (F := fun r : List UType × Levels => UType.FirmList r.1) trivial).mono (fun _ h => h) ?_
    rintro _ σ _ rfl hl
    refine ⟨hl, fun _ s c vs c' k ha hp => ?_⟩
    cases hp
    simp only [UType.instList, Value.HaveTypes]
  | f :: fs, cx, lv, hs => by
    simp only [Format.SolidList] at hs
    simp only [inferComponents]
    refine ((yields_format ho hf hS HL f cx lv hs.1).bind fun r _ =>
      (yields_components ho hf hS HL fs cx r.2 hs.2).bind fun rs hrs =>
      yields_pure (a := ((UType.var r.1 :: rs.1, rs.2) : List UType × Levels)) (F := fun r : List UType × Levels => UType.FirmList r.1)
        (And.intro trivial hrs)).mono (fun _ h => h) ?_
    rintro _ σ _ ⟨r, hr, rs, hrs, rfl⟩ hl
    obtain ⟨hl, hr⟩ := hr hl
    obtain ⟨hl, hrs⟩ := hrs hl
    refine ⟨hl, fun hex s c vs c' k ha hp => ?_⟩
    simp only [Format.ExactList] at hex
    cases hp with
    | fcons hp hq =>
      simp only [UType.instList, UType.inst, Value.HaveTypes]
      exact ⟨hr hex.1 _ _ _ _ _ ha hp, hrs hex.2 _ _ _ _ _ ha hq⟩

theorem yields_sequence (ho : o.Lists) (hf : J.K.fallbacks ≠ .typed) (hS : J.m.SolidOn J.ats J.S) (HL : LevelHyp J level) :
    ∀ (fs : List Format) (e : Nat) (cx : Ctxt) (lv : Levels), Format.SolidList J.m J.S fs →
    Yields (inferSequence o n J.m J.ats level fs e cx lv) (fun _ => True) (SequenceFact J fs e cx lv)
  | [], e, cx, lv, hs => by
    simp only [inferSequence]
    refine yields_ret.to ?_
    rintro _ σ rfl hl
    refine ⟨hl, fun _ s c vs c' k ha hp => ?_⟩
    cases hp
    exact fun _ h => nomatch h
  | f :: fs, e, cx, lv, hs => by
    simp only [Format.SolidList] at hs
    simp only [inferSequence]
    refine ((yields_format ho hf hS HL f cx lv hs.1).bind fun r _ => (yields_pair ho).bind fun _ _ =>
      yields_sequence ho hf hS HL fs e cx r.2 hs.2).to ?_
    rintro _ σ ⟨r, hr, _, hv, hrs⟩ hl
    obtain ⟨hl, hr⟩ := hr hl
    obtain ⟨hl, hrs⟩ := hrs hl
    refine ⟨hl, fun hex s c vs c' k ha hp => ?_⟩
    simp only [Format.ExactList] at hex
    cases hp with
    | fcons hp hq =>
      intro v hm
      rcases List.mem_cons.mp hm with e | hm
      · rw [e, hv]; exact hr hex.1 _ _ _ _ _ ha hp
      · exact hrs hex.2 _ _ _ _ _ ha hq v hm

theorem yields_cases (ho : o.Lists) (hf : J.K.fallbacks ≠ .typed) (hS : J.m.SolidOn J.ats J.S) (HL : LevelHyp J level) :
    ∀ (bs : List (Pattern × Format)) (h v : Nat) (cx : Ctxt) (lv : Levels), Format.SolidCases J.m J.S bs →
    Yields (inferCases o n J.m J.ats level bs h v cx lv) (fun _ => True) (CasesFact J bs h v cx lv)
  | [], h, v, cx, lv, hs => by
    simp only [inferCases]
    refine yields_ret.to ?_
    rintro _ σ rfl hl
    exact ⟨hl, fun _ s x i p f b c y c' k _ _ hi => by simp at hi⟩
  | (p, f) :: bs, h, v, cx, lv, hs => by
    simp only [Format.SolidCases] at hs
    simp only [inferCases]
    refine ((yields_pattern ho (K := J.K) p cx.scope).bind fun q _ =>
      (yields_format ho hf hS HL f { cx with scope := q.2 } lv hs.1).bind fun r _ =>
      (yields_varU ho (t := .var h) trivial).bind fun _ _ => (yields_pair ho).bind fun _ _ =>
      yields_cases ho hf hS HL bs h v cx r.2 hs.2).to ?_
    rintro _ σ ⟨q, hq, r, hr, _, hh, _, hv, hrs⟩ hl
    obtain ⟨hl, hr⟩ := hr hl
    obtain ⟨hl, hrs⟩ := hrs hl
    refine ⟨hl, fun hex s x i p' f' b c y c' k ha hx hi hm hp => ?_⟩
    simp only [Format.ExactCases] at hex
    simp only [UType.inst] at hh
    cases i with
    | succ i => exact hrs hex.2 s x i p' f' b c y c' k ha hx (by simpa using hi) hm hp
    | zero =>
      simp only [List.getElem?_cons_zero, Option.some.injEq, Prod.mk.injEq] at hi
      obtain ⟨rfl, rfl⟩ := hi
      rw [hv]
      exact hr hex.1 _ _ _ _ _ (hq.agrees hm (hh ▸ hx) ha) hp
end
end

theorem yields_level (ho : o.Lists) (hf : J.K.fallbacks ≠ .typed) (hS : J.m.SolidOn J.ats J.S)
    (hE : J.m.ExactOn J.K J.E) : ∀ (k : Nat), LevelHyp J (inferLevel o n J.m J.ats k)
  | 0, l, cx, lv, _ => by
    simp only [inferLevel]
    intro s a s' _ h
    exact (TcM.fuel_ne.mp h).elim
  | k + 1, l, cx, lv, hl => by
    simp only [inferLevel]
    cases hg : NMap.get l lv with
    | some v =>
      refine yields_ret.to ?_
      rintro _ σ rfl _ hlv
      exact ⟨hlv, hlv l v hg⟩
    | none =>
      cases hi : J.m.items[l]? with
      | none =>
        simp only [Module.get, hi, Panicky.unwrap]
        intro st a st' hg h
        rw [TcM.bind_eq_ok] at h
        obtain ⟨_, _, h, _⟩ := h
        cases h
      | some it =>
        simp only [Module.get, hi, Panicky.unwrap]
        refine (yields_known ((yields_format _ ho hf hS (yields_level ho hf hS hE k) it.format cx lv
          (hS l it hl hi).1).bind fun r _ => yields_ret)).to ?_
        rintro _ σ ⟨r, hr, rfl⟩ hsc hlv
        obtain ⟨hlv', hr⟩ := hr hlv
        have hlev : LevelSound J l (σ r.1) := by
          intro hEl it' ts es vs c v c' k hi' ht he hv hp
          rw [hi] at hi'; cases hi'
          exact hr (hE l it hEl hi) _ _ _ _ _ (hsc it ts es vs hi ht he hv) hp
        refine ⟨?_, hlev⟩
        intro l' w hw
        by_cases e : l' = l
        · subst e
          rw [nget_insert_self] at hw
          cases hw
          exact hlev
        · rw [nget_insert_ne _ e] at hw
          exact hlv' l' w hw

theorem yields_top (ho : o.Lists) (hf : J.K.fallbacks ≠ .typed) (hS : J.m.SolidOn J.ats J.S)
    (hE : J.m.ExactOn J.K J.E) (k : Nat) (f : Format) (cx : Ctxt) (lv : Levels) (hs : f.Solid J.m J.S) :
    Yields (inferFormat o n J.m J.ats k f cx lv) (fun _ => True) (FormatFact J f cx lv) :=
  yields_format _ ho hf hS (yields_level ho hf hS hE k) f cx lv hs

/-- the loop over the items that the top format does not use -/
theorem yields_rest (ho : o.Lists) (hf : J.K.fallbacks ≠ .typed) (hS : J.m.SolidOn J.ats J.S)
    (hE : J.m.ExactOn J.K J.E) (k : Nat) : ∀ (ls : List Nat) (lv : Levels), (∀ l ∈ ls, J.S l) →
    Yields (inferRest o n J.m J.ats k ls lv) (fun _ => True)
      (fun r σ => LevelsOk J σ lv → LevelsOk J σ r ∧ ∀ l ∈ ls, ∃ w, LevelSound J l (σ w))
  | [], lv, _ => by
    refine (yields_pure (a := lv) (F := fun _ => True) trivial).to ?_
    rintro a σ rfl h
    exact ⟨h, fun l hl => by cases hl⟩
  | l :: ls, lv, hl => by
    unfold inferRest
    cases hget : NMap.get l lv with
    | some w =>
      refine (yields_rest ho hf hS hE k ls lv fun l' h => hl l' (by simp [h])).to fun r σ h hlv => ?_
      refine ⟨(h hlv).1, fun l' hl' => ?_⟩
      rcases List.mem_cons.1 hl' with rfl | hl'
      · exact ⟨w, hlv _ _ hget⟩
      · exact (h hlv).2 l' hl'
    | none =>
      dsimp only
      intro s r s' hg h
      obtain ⟨it, s1, h1, h2⟩ := TcM.bind_eq_ok.1 h
      obtain ⟨hit, rfl⟩ := TcM.ofPanicky_eq_ok.1 h1
      have hitem : J.m.items[l]? = some it := by
        unfold Module.get Panicky.unwrap at hit
        split at hit
        · cases hit; assumption
        · cases hit
      have hs := (hS l it (hl l (by simp)) hitem).1
      have hb := Yields.bind (yields_top (n := n) ho hf hS hE k it.format Ctxt.empty lv hs) (G := fun _ => True)
        (fun a _ => yields_rest ho hf hS hE k ls a.2 fun l' h => hl l' (by simp [h]))
      refine ⟨trivial, (hb s r s' hg h2).2.weaken ?_⟩
      rintro σ _ _ ⟨a, h3, h4⟩ hlv
      obtain ⟨h5, h6⟩ := h3 hlv
      obtain ⟨h7, h8⟩ := h4 h5
      refine ⟨h7, fun l' hl' => ?_⟩
      rcases List.mem_cons.1 hl' with rfl | hl'
      · refine ⟨a.1, fun e it' ts es vs c v c' d g1 _ _ _ g4 => ?_⟩
        rw [hitem] at g1
        cases g1
        exact h6 (hE _ _ e hitem) _ c v c' d (fun _ _ _ h => by simp [Ctxt.empty, UScope.get, TMap.get] at h) g4
      · exact h8 l' hl'

end Tc
end Doodle
