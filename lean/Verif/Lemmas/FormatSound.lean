import Verif.Lemmas.ExprSound
import Verif.Spec.FormatSound

/-! Type soundness of formats, on derivations. -/

namespace Doodle
open ValueType (Le LeList LeFields LeMap WF WFList WFMap)
open Grammar

/-- every format in the typing scope is a Huffman code -/
def TypeScope.Codes (Γ : TypeScope) : Prop := ∀ name t, (name, ValueKind.format t) ∈ Γ → t = .u .b16

theorem TypeScope.Codes.value {Γ : TypeScope} (h : Γ.Codes) {name : String} {t : ValueType} :
    TypeScope.Codes ((name, .value t) :: Γ) := by
  intro n u hm
  rcases List.mem_cons.mp hm with h' | h'
  · cases h'
  · exact h n u h'

theorem TypeScope.Codes.view {Γ : TypeScope} (h : Γ.Codes) {name : String} :
    TypeScope.Codes ((name, .view) :: Γ) := by
  intro n u hm
  rcases List.mem_cons.mp hm with h' | h'
  · cases h'
  · exact h n u h'

theorem TypeScope.Codes.format {Γ : TypeScope} (h : Γ.Codes) {name : String} :
    TypeScope.Codes ((name, .format (.u .b16)) :: Γ) := by
  intro n u hm
  rcases List.mem_cons.mp hm with h' | h'
  · cases h'; rfl
  · exact h n u h'

theorem TypeScope.WF.view {Γ : TypeScope} (h : Γ.WF) {name : String} : TypeScope.WF ((name, .view) :: Γ) := by
  intro n u hm
  rcases List.mem_cons.mp hm with h' | h'
  · cases h'
  · exact h n u h'

theorem TypeScope.WF.format {Γ : TypeScope} (h : Γ.WF) {name : String} {t : ValueType} :
    TypeScope.WF ((name, .format t) :: Γ) := by
  intro n u hm
  rcases List.mem_cons.mp hm with h' | h'
  · cases h'
  · exact h n u h'

theorem Scope.Agrees.view {δ : Type} {σ : Slack} {s : Scope δ} {Γ : TypeScope} (h : s.Agrees σ Γ)
    {name : String} {c : ReadCtxt} : (Scope.view name c s).Agrees σ ((name, .view) :: Γ) := by
  intro n t v hg hv
  simp only [TypeScope.get] at hg
  split at hg
  · cases hg
  · exact h n t v hg hv

theorem Scope.Agrees.decoder {δ : Type} {σ : Slack} {s : Scope δ} {Γ : TypeScope} (h : s.Agrees σ Γ)
    {name : String} {d : δ} {t : ValueType} : (Scope.decoder name d s).Agrees σ ((name, .format t) :: Γ) := by
  intro n t v hg hv
  simp only [TypeScope.get] at hg
  split at hg
  · cases hg
  · exact h n t v hg hv

/-! The patterns of a match add values only. -/

mutual
theorem Pattern.build_codes : ∀ (p : Pattern) (t : ValueType) (Γ Γ' : TypeScope),
    p.buildScope Γ t = .ok Γ' → t.WF → Γ.Codes → Γ'.Codes
  | .binding name, t, Γ, Γ', hb, ht, hΓ => by
    simp only [buildScope, Outcome.ok.injEq] at hb
    subst hb; exact hΓ.value
  | .wildcard, t, Γ, Γ', hb, ht, hΓ => by
    simp only [buildScope, Outcome.ok.injEq] at hb
    subst hb; exact hΓ
  | .bool b, t, Γ, Γ', hb, ht, hΓ => by
    unfold buildScope at hb
    cases t <;> simp only [reduceCtorEq] at hb
    rename_i b
    cases b <;> simp only [Outcome.ok.injEq, reduceCtorEq] at hb
    subst hb; exact hΓ
  | .lit w n, t, Γ, Γ', hb, ht, hΓ => by
    unfold buildScope at hb
    cases t <;> simp only [reduceCtorEq] at hb
    rename_i b
    cases b <;> simp only [reduceCtorEq] at hb
    split at hb <;> simp only [Outcome.ok.injEq, reduceCtorEq] at hb
    subst hb; exact hΓ
  | .int b, t, Γ, Γ', hb, ht, hΓ => by
    unfold buildScope at hb
    cases t <;> simp only [reduceCtorEq] at hb
    rename_i b
    cases b <;> simp only [Outcome.ok.injEq, reduceCtorEq] at hb
    subst hb; exact hΓ
  | .zConst b, t, Γ, Γ', hb, ht, hΓ => by
    unfold buildScope at hb
    split at hb <;> simp only [Outcome.ok.injEq, reduceCtorEq] at hb
    subst hb; exact hΓ
  | .zRange b, t, Γ, Γ', hb, ht, hΓ => by
    unfold buildScope at hb
    split at hb <;> simp only [Outcome.ok.injEq, reduceCtorEq] at hb
    subst hb; exact hΓ
  | .char c, t, Γ, Γ', hb, ht, hΓ => by
    unfold buildScope at hb
    simp only [reduceCtorEq] at hb
  | .tuple ps, t, Γ, Γ', hb, ht, hΓ => by
    cases t <;> simp only [buildScope, reduceCtorEq] at hb
    rename_i ts
    split at hb
    · cases ht with
      | tuple ht => exact Pattern.build_codes_all ps ts Γ Γ' hb ht hΓ
    · simp only [reduceCtorEq] at hb
  | .seq ps, t, Γ, Γ', hb, ht, hΓ => by
    cases t <;> simp only [buildScope, reduceCtorEq] at hb
    rename_i t
    cases ht with
    | seq ht => exact Pattern.build_codes_seq ps t Γ Γ' hb ht hΓ
  | .optNone, t, Γ, Γ', hb, ht, hΓ => by
    cases t <;> simp only [buildScope, reduceCtorEq, Outcome.ok.injEq] at hb
    subst hb; exact hΓ
  | .optSome p, t, Γ, Γ', hb, ht, hΓ => by
    cases t <;> simp only [buildScope, reduceCtorEq] at hb
    rename_i t
    cases ht with
    | option ht => exact Pattern.build_codes p t Γ Γ' hb ht hΓ
  | .variant label p, t, Γ, Γ', hb, ht, hΓ => by
    cases t <;> simp only [buildScope, reduceCtorEq] at hb
    rename_i branches
    split at hb
    · rename_i u hg
      cases ht with
      | union _ ht => exact Pattern.build_codes p u Γ Γ' hb (ht.get hg) hΓ
    · simp only [reduceCtorEq] at hb

theorem Pattern.build_codes_all : ∀ (ps : List Pattern) (ts : List ValueType) (Γ Γ' : TypeScope),
    Pattern.buildScopes ps Γ ts = .ok Γ' → WFList ts → Γ.Codes → Γ'.Codes
  | [], ts, Γ, Γ', hb, ht, hΓ => by
    simp only [buildScopes, Outcome.ok.injEq] at hb
    subst hb; exact hΓ
  | p :: ps, [], Γ, Γ', hb, ht, hΓ => by
    simp only [buildScopes, Outcome.ok.injEq] at hb
    subst hb; exact hΓ
  | p :: ps, t :: ts, Γ, Γ', hb, ht, hΓ => by
    simp only [buildScopes] at hb
    obtain ⟨Γ1, h1, h2⟩ := Outcome.bind_eq_ok.mp hb
    cases ht with
    | cons ht hts => exact Pattern.build_codes_all ps ts Γ1 Γ' h2 hts (Pattern.build_codes p t Γ Γ1 h1 ht hΓ)

theorem Pattern.build_codes_seq : ∀ (ps : List Pattern) (t : ValueType) (Γ Γ' : TypeScope),
    Pattern.buildScopeSeq ps Γ t = .ok Γ' → t.WF → Γ.Codes → Γ'.Codes
  | [], t, Γ, Γ', hb, ht, hΓ => by
    simp only [buildScopeSeq, Outcome.ok.injEq] at hb
    subst hb; exact hΓ
  | p :: ps, t, Γ, Γ', hb, ht, hΓ => by
    simp only [buildScopeSeq] at hb
    obtain ⟨Γ1, h1, h2⟩ := Outcome.bind_eq_ok.mp hb
    exact Pattern.build_codes_seq ps t Γ1 Γ' h2 ht (Pattern.build_codes p t Γ Γ1 h1 ht hΓ)
end

section
variable {σ : Slack} {m : Module} {tys : List ItemTypes} {rej : Format → Scope Format → ReadCtxt → Prop}

/-- every format bound in the scope yields 16-bit numbers -/
def Scope.Codes (σ : Slack) (m : Module) (rej : Format → Scope Format → ReadCtxt → Prop) (s : Scope Format) :
    Prop :=
  ∀ x g, s.getDecoder x = some g → ∀ s' c v c' k, Parses m rej g s' c v c' k → v.HasType σ (.u .b16)

theorem Scope.Codes.decoder {s : Scope Format} (h : s.Codes σ m rej) {x : String} {g : Format}
    (hg : ∀ s' c v c' k, Parses m rej g s' c v c' k → v.HasType σ (.u .b16)) :
    (Scope.decoder x g s).Codes σ m rej := by
  intro y g' hy
  simp only [Scope.getDecoder] at hy
  split at hy
  · cases hy; exact hg
  · exact h y g' hy

theorem huffman_typed {ls : List Nat} {vs : Option (List Nat)} {g : Format}
    (h : Decoder.huffmanFormat ls vs = .ok g) (s : Scope Format) (c : ReadCtxt) (v : Value) (c' : ReadCtxt)
    (k : Nat) (hp : Parses m rej g s c v c' k) : v.HasType σ (.u .b16) := by
  unfold Decoder.huffmanFormat at h
  obtain ⟨codes, _, h⟩ := Panicky.bind_eq_ok.mp h
  simp only [Panicky.ok.injEq] at h
  subst h
  cases hp with
  | union hi hp =>
    rw [List.getElem?_map, Option.map_eq_some_iff] at hi
    obtain ⟨code, _, rfl⟩ := hi
    simp only [Value.HasType]
    unfold Decoder.huffmanBranch at hp
    cases hp with
    | map _ hs =>
      simp only [Value.HasType]
      obtain ⟨w, hw, rfl⟩ := Expr.evalLambda_eq hs
      simp only [Expr.eval, Panicky.ok.injEq] at hw
      subst hw
      simp only [Value.coerceMapped, Value.HasType, ValueType.u]

theorem Expr.evalValue_eq {δ : Type} {e : Expr} {s : Scope δ} {v : Value} (h : e.evalValue s = .ok v) :
    ∃ w, e.eval s = .ok w ∧ v = w.coerceMapped := by
  unfold Expr.evalValue at h
  obtain ⟨w, hw, h⟩ := Panicky.bind_eq_ok.mp h
  simp only [Panicky.ok.injEq] at h
  exact ⟨w, hw, h.symm⟩

theorem denotes_typed {s : Scope Format} {Γ : TypeScope} {e : Expr} {v : Value} {t : ValueType}
    (hf : σ.fallbacks ≠ .typed) (hΓ : Γ.WF) (hk : e.Kept σ Γ) (ht : e.inferType Γ = .ok t)
    (hs : s.Agrees σ Γ) (h : Denotes e s v) : v.HasType σ t := by
  obtain ⟨w, hw, rfl⟩ := Expr.evalValue_eq h
  exact ((Expr.infer_sound (δ := Format) hf e Γ t hΓ hk ht).2 s w hs hw).coerceMapped

theorem sends_typed {s : Scope Format} {Γ : TypeScope} {x : String} {body : Expr} {a v : Value} {t u : ValueType}
    (hf : σ.fallbacks ≠ .typed) (hΓ : Γ.WF) (ht : t.WF) (hk : body.Kept σ ((x, .value t) :: Γ))
    (hu : body.inferType ((x, .value t) :: Γ) = .ok u) (hs : s.Agrees σ Γ) (ha : a.HasType σ t)
    (h : Sends (.lambda x body) s a v) : v.HasType σ u := by
  obtain ⟨w, hw, rfl⟩ := Expr.evalLambda_eq h
  exact ((Expr.infer_sound (δ := Format) hf body _ u (hΓ.cons ht) hk hu).2 _ w (hs.single ha) hw).coerceMapped

theorem denotesItems_typed {s : Scope Format} {Γ : TypeScope} {e : Expr} {vs : List Value} {t : ValueType}
    (hf : σ.fallbacks ≠ .typed) (hΓ : Γ.WF) (hk : e.Kept σ Γ) (ht : e.inferType Γ = .ok (.seq t))
    (hs : s.Agrees σ Γ) (h : DenotesItems e s vs) : ∀ v ∈ vs, v.HasType σ t := by
  obtain ⟨w, q, hw, hq, rfl⟩ := h
  exact (denotes_typed hf hΓ hk ht hs hw).items hq

theorem accum_typed {s : Scope Format} {Γ : TypeScope} {done : Expr} {x : String} {body : Expr}
    {t ty tu : ValueType} (hf : σ.fallbacks ≠ .typed) (hΓ : Γ.WF) (ht : t.WF) (hty : ty.WF)
    (hk : body.Kept σ ((x, .value (.tuple [ty, t])) :: Γ))
    (hu : body.inferType ((x, .value (.tuple [ty, t])) :: Γ) = .ok tu) (hle : Le tu ty) (hs : s.Agrees σ Γ)
    {a : Value} {seen vs : List Value} {r : Value} (h : AccumTo done (.lambda x body) s a seen vs r)
    (ha : a.HasType σ ty) (hvs : ∀ v ∈ vs, v.HasType σ t) : r.HasType σ ty := by
  induction h with
  | stop _ => exact ha
  | step _ h2 _ ih =>
    refine ih ?_ fun v hv => hvs v (List.mem_cons_of_mem _ hv)
    refine (sends_typed hf hΓ (.tuple (.cons hty (.cons ht .nil))) hk hu hs ?_ h2).mono hle
    simp only [Value.HasType]
    exact ⟨_, rfl, by simp only [Value.HaveTypes]; exact ⟨ha, hvs _ (List.mem_cons_self ..), trivial⟩⟩

/-- what is known about the items of a module: their formats have the recorded types -/
def Module.Typed (m : Module) (tys : List ItemTypes) : Prop :=
  ∀ (level : Nat) (it : Item) (ty : ItemTypes), m.items[level]? = some it → tys[level]? = some ty →
    it.args.length = ty.args.length ∧
    it.format.inferType m tys (TypeScope.ofItem (it.args.zip ty.args) it.views) = .ok ty.format

theorem TypeScope.WF.ofItem {args : List String} {ts : List ValueType} {views : List String} (h : WFList ts) :
    (TypeScope.ofItem (args.zip ts) views).WF := by
  intro n t hm
  unfold TypeScope.ofItem at hm
  rcases List.mem_append.mp hm with h' | h'
  · rw [List.mem_reverse, List.mem_map] at h'
    obtain ⟨_, _, h'⟩ := h'
    cases h'
  · rw [List.mem_reverse, List.mem_map] at h'
    obtain ⟨⟨a, u⟩, h', e⟩ := h'
    cases e
    obtain ⟨i, hi⟩ := List.mem_iff_getElem?.mp (List.of_mem_zip h').2
    exact h.get hi

theorem TypeScope.Codes.ofItem {args : List (String × ValueType)} {views : List String} :
    (TypeScope.ofItem args views).Codes := by
  intro n t hm
  unfold TypeScope.ofItem at hm
  rcases List.mem_append.mp hm with h' | h'
  · rw [List.mem_reverse, List.mem_map] at h'
    obtain ⟨_, _, h'⟩ := h'
    cases h'
  · rw [List.mem_reverse, List.mem_map] at h'
    obtain ⟨_, _, h'⟩ := h'
    cases h'

theorem inferJoin_get {tys : List ItemTypes} : ∀ {fs : List Format} {Γ : TypeScope} {acc t : ValueType}
    {i : Nat} {f : Format}, (∀ f ∈ fs, ∀ u, f.inferType m tys Γ = .ok u → u.WF) → acc.WF →
    Format.inferJoin m tys fs Γ acc = .ok t →
    t.WF ∧ Le acc t ∧ (fs[i]? = some f → ∃ u, f.inferType m tys Γ = .ok u ∧ Le u t)
  | [], Γ, acc, t, i, f, hw, ha, h => by
    simp only [Format.inferJoin, Outcome.ok.injEq] at h
    subst h
    exact ⟨ha, .refl ha, fun h => nomatch h⟩
  | g :: fs, Γ, acc, t, i, f, hw, ha, h => by
    simp only [Format.inferJoin] at h
    obtain ⟨u, h1, h⟩ := Outcome.bind_eq_ok.mp h
    obtain ⟨acc', h2, h⟩ := Outcome.bind_eq_ok.mp h
    have wu := hw g (List.mem_cons_self ..) u h1
    obtain ⟨wa, l1, l2⟩ := ValueType.unify_upper acc u acc' ha wu (ValueType.unifyI_eq h2)
    obtain ⟨wt, l3, ih⟩ := inferJoin_get (i := i - 1) (f := f) (fun f hf => hw f (List.mem_cons_of_mem _ hf)) wa h
    refine ⟨wt, l1.trans l3, fun hi => ?_⟩
    cases i with
    | zero =>
      simp only [List.getElem?_cons_zero, Option.some.injEq] at hi
      subst hi
      exact ⟨u, h1, l2.trans l3⟩
    | succ i => exact ih (by simpa using hi)

theorem inferList_get {tys : List ItemTypes} : ∀ {fs : List Format} {Γ : TypeScope} {ts : List ValueType},
    (∀ f ∈ fs, ∀ u, f.inferType m tys Γ = .ok u → u.WF) →
    Format.inferList m tys fs Γ = .ok ts → WFList ts
  | [], Γ, ts, hw, h => by
    simp only [Format.inferList, Outcome.ok.injEq] at h
    subst h
    exact .nil
  | g :: fs, Γ, ts, hw, h => by
    simp only [Format.inferList] at h
    obtain ⟨u, h1, h⟩ := Outcome.bind_eq_ok.mp h
    obtain ⟨us, h2, h⟩ := Outcome.bind_eq_ok.mp h
    simp only [Outcome.ok.injEq] at h
    subst h
    exact .cons (hw g (List.mem_cons_self ..) u h1)
      (inferList_get (fun f hf => hw f (List.mem_cons_of_mem _ hf)) h2)

theorem inferBranches_get {tys : List ItemTypes} : ∀ {bs : List (Pattern × Format)} {Γ : TypeScope}
    {th acc t : ValueType} {i : Nat} {p : Pattern} {f : Format},
    (∀ p f, (p, f) ∈ bs → ∀ Γ' u, p.buildScope Γ th = .ok Γ' → f.inferType m tys Γ' = .ok u → u.WF) → acc.WF →
    Format.inferBranches m tys bs Γ th acc = .ok t →
    t.WF ∧ Le acc t ∧ (bs[i]? = some (p, f) →
      ∃ Γ' u, p.buildScope Γ th = .ok Γ' ∧ f.inferType m tys Γ' = .ok u ∧ Le u t)
  | [], Γ, th, acc, t, i, p, f, hw, ha, h => by
    simp only [Format.inferBranches, Outcome.ok.injEq] at h
    subst h
    exact ⟨ha, .refl ha, fun h => nomatch h⟩
  | (q, g) :: fs, Γ, th, acc, t, i, p, f, hw, ha, h => by
    simp only [Format.inferBranches] at h
    obtain ⟨Γ', h0, h⟩ := Outcome.bind_eq_ok.mp h
    obtain ⟨u, h1, h⟩ := Outcome.bind_eq_ok.mp h
    obtain ⟨acc', h2, h⟩ := Outcome.bind_eq_ok.mp h
    have wu := hw q g (List.mem_cons_self ..) Γ' u h0 h1
    obtain ⟨wa, l1, l2⟩ := ValueType.unify_upper acc u acc' ha wu (ValueType.unifyI_eq h2)
    obtain ⟨wt, l3, ih⟩ := inferBranches_get (i := i - 1) (p := p) (f := f)
      (fun p f hf => hw p f (List.mem_cons_of_mem _ hf)) wa h
    refine ⟨wt, l1.trans l3, fun hi => ?_⟩
    cases i with
    | zero =>
      simp only [List.getElem?_cons_zero, Option.some.injEq, Prod.mk.injEq] at hi
      obtain ⟨rfl, rfl⟩ := hi
      exact ⟨Γ', u, h0, h1, l2.trans l3⟩
    | succ i => exact ih (by simpa using hi)

theorem needBool_eq {t : ValueType} {r : Unit} (h : t.needBool = .ok r) : t = .bool := by
  cases t <;> simp only [ValueType.needBool, reduceCtorEq] at h
  rename_i b
  cases b <;> simp only [reduceCtorEq] at h
  rfl

/-- The types recorded for items are well-formed. -/
def ItemsWF (tys : List ItemTypes) : Prop :=
  ∀ (level : Nat) (ty : ItemTypes), tys[level]? = some ty → ty.format.WF

theorem needNumeric_eq {t r u : ValueType} (h : t.needNumeric r = .ok u) : u = r := by
  unfold ValueType.needNumeric at h
  split at h <;> simp only [reduceCtorEq, Outcome.ok.injEq] at h
  exact h.symm

theorem Format.KeptList.mem {σ : Slack} {tys : List ItemTypes} {fs : List Format} {Γ : TypeScope}
    (h : Format.KeptList σ m tys fs Γ) {f : Format} (hf : f ∈ fs) : f.Kept σ m tys Γ := by
  induction fs with
  | nil => cases hf
  | cons g fs ih =>
    simp only [Format.KeptList] at h
    rcases List.mem_cons.mp hf with rfl | hf
    · exact h.1
    · exact ih h.2 hf

theorem Format.KeptBranches.mem {σ : Slack} {tys : List ItemTypes} {fs : List (Pattern × Format)}
    {Γ : TypeScope} {th : ValueType}
    (h : Format.KeptBranches σ m tys fs Γ th) {p : Pattern} {f : Format} (hf : (p, f) ∈ fs) {Γ' : TypeScope}
    (hb : p.buildScope Γ th = .ok Γ') : f.Kept σ m tys Γ' := by
  induction fs with
  | nil => cases hf
  | cons g fs ih =>
    obtain ⟨q, g⟩ := g
    simp only [Format.KeptBranches] at h
    rcases List.mem_cons.mp hf with e | hf
    · cases e; exact h.1 Γ' hb
    · exact ih h.2 hf

/-- The second module has the items of the first one, and possibly more. -/
structure Module.Ext (m : Module) (tys : List ItemTypes) (m' : Module) (tys' : List ItemTypes) : Prop where
  items : ∀ (level : Nat) (it : Item), m.items[level]? = some it → m'.items[level]? = some it
  types : ∀ (level : Nat) (ty : ItemTypes), tys[level]? = some ty → tys'[level]? = some ty

theorem Module.Ext.refl {m : Module} {tys : List ItemTypes} : Module.Ext m tys m tys := ⟨fun _ _ h => h, fun _ _ h => h⟩

theorem Module.Ext.trans {m m' m'' : Module} {tys tys' tys'' : List ItemTypes} (h : Module.Ext m tys m' tys')
    (h' : Module.Ext m' tys' m'' tys'') : Module.Ext m tys m'' tys'' :=
  ⟨fun l i e => h'.items l i (h.items l i e), fun l i e => h'.types l i (h.types l i e)⟩

/-- where the first inference succeeds, the second one has the same result -/
def InferLe {α : Type} (a b : Infer α) : Prop := ∀ x, a = .ok x → b = .ok x

theorem InferLe.refl {α : Type} {a : Infer α} : InferLe a a := fun _ h => h

theorem InferLe.bind {α β : Type} {a b : Infer α} {f g : α → Infer β} (h : InferLe a b)
    (h' : ∀ x, InferLe (f x) (g x)) : InferLe (a >>= f) (b >>= g) := by
  intro y hy
  obtain ⟨x, h1, h2⟩ := Outcome.bind_eq_ok.mp hy
  rw [h x h1]
  exact h' x y h2

theorem InferLe.unwrap {α : Type} {a b : Option α} (h : ∀ x, a = some x → b = some x) :
    InferLe (Outcome.ofPanicky (Panicky.unwrap a)) (Outcome.ofPanicky (Panicky.unwrap b)) := by
  intro x hx
  have hx := Outcome.ofPanicky_eq_ok.mp hx
  cases a with
  | none => simp only [Panicky.unwrap, reduceCtorEq] at hx
  | some y =>
    rw [h y rfl]
    simp only [Panicky.unwrap, Panicky.ok.injEq] at hx
    subst hx
    rfl

mutual
/-- defining more items does not change the types inferred before -/
theorem Format.infer_ext {m m' : Module} {tys tys' : List ItemTypes} (hx : Module.Ext m tys m' tys') :
    ∀ (f : Format) (Γ : TypeScope), InferLe (f.inferType m tys Γ) (f.inferType m' tys' Γ)
  | .itemVar level args views, Γ => by
    simp only [inferType]
    exact .bind (.unwrap (hx.items level)) fun it => .bind (.unwrap (hx.types level)) fun ty => .refl
  | .fail, Γ => by simp only [inferType]; exact .refl
  | .endOfInput, Γ => by simp only [inferType]; exact .refl
  | .align _, Γ => by simp only [inferType]; exact .refl
  | .byte _, Γ => by simp only [inferType]; exact .refl
  | .peekNot _, Γ => by simp only [inferType]; exact .refl
  | .compute _, Γ => by simp only [inferType]; exact .refl
  | .apply _, Γ => by simp only [inferType]; exact .refl
  | .pos, Γ => by simp only [inferType]; exact .refl
  | .skipRemainder, Γ => by simp only [inferType]; exact .refl
  | .liftedNone, Γ => by simp only [inferType]; exact .refl
  | .captureBytes _ _, Γ => by simp only [inferType]; exact .refl
  | .readArray _ _ _, Γ => by simp only [inferType]; exact .refl
  | .reifyView _, Γ => by simp only [inferType]; exact .refl
  | .peek f, Γ => by simp only [inferType]; exact Format.infer_ext hx f _
  | .slice _ f, Γ => by simp only [inferType]; exact Format.infer_ext hx f _
  | .bits f, Γ => by simp only [inferType]; exact Format.infer_ext hx f _
  | .withRelativeOffset _ _ f, Γ => by simp only [inferType]; exact Format.infer_ext hx f _
  | .hint f, Γ => by simp only [inferType]; exact Format.infer_ext hx f _
  | .enforce f, Γ => by simp only [inferType]; exact Format.infer_ext hx f _
  | .letView _ f, Γ => by simp only [inferType]; exact Format.infer_ext hx f _
  | .variant _ f, Γ => by simp only [inferType]; exact .bind (Format.infer_ext hx f Γ) fun _ => .refl
  | .repeat_ f, Γ => by simp only [inferType]; exact .bind (Format.infer_ext hx f Γ) fun _ => .refl
  | .repeat1 f, Γ => by simp only [inferType]; exact .bind (Format.infer_ext hx f Γ) fun _ => .refl
  | .liftedSome f, Γ => by simp only [inferType]; exact .bind (Format.infer_ext hx f Γ) fun _ => .refl
  | .phantom f, Γ => by simp only [inferType]; exact .bind (Format.infer_ext hx f Γ) fun _ => .refl
  | .map f _, Γ => by simp only [inferType]; exact .bind (Format.infer_ext hx f Γ) fun _ => .refl
  | .where_ f _ _, Γ => by simp only [inferType]; exact .bind (Format.infer_ext hx f Γ) fun _ => .refl
  | .let_ _ e f, Γ => by simp only [inferType]; exact .bind .refl fun _ => Format.infer_ext hx f _
  | .parseFromView _ f, Γ => by simp only [inferType]; exact .bind .refl fun _ => Format.infer_ext hx f _
  | .decodeBytes _ f, Γ => by simp only [inferType]; exact .bind .refl fun _ => .bind .refl fun _ => Format.infer_ext hx f _
  | .dynamic _ _ _ f, Γ => by simp only [inferType]; exact .bind .refl fun _ => .bind .refl fun _ => Format.infer_ext hx f _
  | .repeatCount _ f, Γ => by
    simp only [inferType]
    exact .bind .refl fun _ => .bind .refl fun _ => .bind (Format.infer_ext hx f _) fun _ => .refl
  | .maybe _ f, Γ => by
    simp only [inferType]
    exact .bind .refl fun _ => .bind .refl fun _ => .bind (Format.infer_ext hx f _) fun _ => .refl
  | .forEach _ _ f, Γ => by
    simp only [inferType]
    exact .bind .refl fun _ => .bind .refl fun _ => .bind (Format.infer_ext hx f _) fun _ => .refl
  | .union fs, Γ => by simp only [inferType]; exact Format.inferJoin_ext hx fs Γ _
  | .unionNondet fs, Γ => by simp only [inferType]; exact Format.inferJoin_ext hx fs Γ _
  | .sequence fs, Γ => by simp only [inferType]; exact .bind (Format.inferJoin_ext hx fs Γ _) fun _ => .refl
  | .tuple fs, Γ => by simp only [inferType]; exact .bind (Format.inferList_ext hx fs Γ) fun _ => .refl
  | .repeatBetween _ _ f, Γ => by
    simp only [inferType]
    refine .bind .refl fun _ => .bind .refl fun _ => .bind .refl fun _ => .bind .refl fun _ => ?_
    split
    · exact .bind (Format.infer_ext hx f Γ) fun _ => .refl
    · exact .refl
  | .repeatUntilLast e f, Γ => by
    cases e <;> simp only [inferType] <;> first | exact .refl | exact .bind (Format.infer_ext hx f Γ) fun _ => .refl
  | .repeatUntilSeq e f, Γ => by
    cases e <;> simp only [inferType] <;> first | exact .refl | exact .bind (Format.infer_ext hx f Γ) fun _ => .refl
  | .accumUntil e _ _ _ f, Γ => by
    cases e <;> simp only [inferType] <;> first | exact .refl | exact .bind (Format.infer_ext hx f Γ) fun _ => .refl
  | .letFormat f _ g, Γ => by
    simp only [inferType]; exact .bind (Format.infer_ext hx f Γ) fun _ => Format.infer_ext hx g _
  | .monadSeq f g, Γ => by
    simp only [inferType]; exact .bind (Format.infer_ext hx f Γ) fun _ => Format.infer_ext hx g _
  | .permit f _, Γ => by
    simp only [inferType]; exact .bind .refl fun _ => .bind (Format.infer_ext hx f Γ) fun _ => .refl
  | .match_ _ bs, Γ => by
    simp only [inferType]
    split
    · exact .refl
    · exact .bind .refl fun _ => Format.inferBranches_ext hx bs Γ _ _

theorem Format.inferList_ext {m m' : Module} {tys tys' : List ItemTypes} (hx : Module.Ext m tys m' tys') :
    ∀ (fs : List Format) (Γ : TypeScope), InferLe (Format.inferList m tys fs Γ) (Format.inferList m' tys' fs Γ)
  | [], Γ => .refl
  | f :: fs, Γ => by
    simp only [Format.inferList]
    exact .bind (Format.infer_ext hx f Γ) fun _ => .bind (Format.inferList_ext hx fs Γ) fun _ => .refl

theorem Format.inferJoin_ext {m m' : Module} {tys tys' : List ItemTypes} (hx : Module.Ext m tys m' tys') :
    ∀ (fs : List Format) (Γ : TypeScope) (acc : ValueType),
    InferLe (Format.inferJoin m tys fs Γ acc) (Format.inferJoin m' tys' fs Γ acc)
  | [], Γ, acc => .refl
  | f :: fs, Γ, acc => by
    simp only [Format.inferJoin]
    exact .bind (Format.infer_ext hx f Γ) fun _ => .bind .refl fun _ => Format.inferJoin_ext hx fs Γ _

theorem Format.inferBranches_ext {m m' : Module} {tys tys' : List ItemTypes} (hx : Module.Ext m tys m' tys') :
    ∀ (bs : List (Pattern × Format)) (Γ : TypeScope) (th acc : ValueType),
    InferLe (Format.inferBranches m tys bs Γ th acc) (Format.inferBranches m' tys' bs Γ th acc)
  | [], Γ, th, acc => .refl
  | (p, f) :: bs, Γ, th, acc => by
    simp only [Format.inferBranches]
    exact .bind .refl fun _ => .bind (Format.infer_ext hx f _) fun _ => .bind .refl fun _ =>
      Format.inferBranches_ext hx bs Γ th _
end

set_option maxHeartbeats 4000000 in
mutual
/-- inferred format types are well-formed -/
theorem Format.infer_wf {σ : Slack} {m m' : Module} {tys tys' : List ItemTypes} (hf : σ.fallbacks ≠ .typed)
    (hI : ItemsWF tys) (hx : Module.Ext m tys m' tys') : ∀ (f : Format) (Γ : TypeScope) (t : ValueType), Γ.WF → Γ.Codes → f.Kept σ m' tys' Γ →
    f.inferType m tys Γ = .ok t → t.WF
  | .itemVar level args views, Γ, t, hΓ, hc, hk, h => by
    simp only [inferType] at h
    obtain ⟨it, h1, h⟩ := Outcome.bind_eq_ok.mp h
    obtain ⟨ty, h2, h⟩ := Outcome.bind_eq_ok.mp h
    split at h
    · split at h
      · obtain ⟨_, _, h⟩ := Outcome.bind_eq_ok.mp h
        simp only [Outcome.ok.injEq] at h
        subst h
        have h2 := Outcome.ofPanicky_eq_ok.mp h2
        cases hg : tys[level]? with
        | none => rw [hg] at h2; simp only [Panicky.unwrap, reduceCtorEq] at h2
        | some x =>
          rw [hg] at h2; simp only [Panicky.unwrap, Panicky.ok.injEq] at h2; subst h2
          exact hI level x hg
      · simp only [reduceCtorEq] at h
    · simp only [reduceCtorEq] at h
  | .fail, Γ, t, hΓ, hc, hk, h => by
    simp only [inferType, Outcome.ok.injEq] at h; subst h; exact .empty
  | .endOfInput, Γ, t, hΓ, hc, hk, h => by
    simp only [inferType, Outcome.ok.injEq] at h; subst h; exact .tuple .nil
  | .align _, Γ, t, hΓ, hc, hk, h => by
    simp only [inferType, Outcome.ok.injEq] at h; subst h; exact .tuple .nil
  | .skipRemainder, Γ, t, hΓ, hc, hk, h => by
    simp only [inferType, Outcome.ok.injEq] at h; subst h; exact .tuple .nil
  | .peekNot _, Γ, t, hΓ, hc, hk, h => by
    simp only [inferType, Outcome.ok.injEq] at h; subst h; exact .tuple .nil
  | .byte _, Γ, t, hΓ, hc, hk, h => by
    simp only [inferType, Outcome.ok.injEq] at h; subst h; exact .base
  | .pos, Γ, t, hΓ, hc, hk, h => by simp only [Kept] at hk
  | .liftedNone, Γ, t, hΓ, hc, hk, h => by
    simp only [inferType, Outcome.ok.injEq] at h; subst h; exact .option .any
  | .variant l f, Γ, t, hΓ, hc, hk, h => by
    simp only [inferType] at h
    simp only [Kept] at hk
    obtain ⟨u, h1, h⟩ := Outcome.bind_eq_ok.mp h
    simp only [Outcome.ok.injEq] at h; subst h
    exact .union (.cons (fun _ h => nomatch h) .nil) (.cons (Format.infer_wf hf hI hx f Γ u hΓ hc hk h1) .nil)
  | .union fs, Γ, t, hΓ, hc, hk, h => by
    simp only [inferType] at h
    simp only [Kept] at hk
    exact (inferJoin_get (i := 0) (f := .fail) (Format.inferAll_wf hf hI hx fs Γ hΓ hc hk) .any h).1
  | .unionNondet fs, Γ, t, hΓ, hc, hk, h => by
    simp only [inferType] at h
    simp only [Kept] at hk
    exact (inferJoin_get (i := 0) (f := .fail) (Format.inferAll_wf hf hI hx fs Γ hΓ hc hk) .any h).1
  | .sequence fs, Γ, t, hΓ, hc, hk, h => by
    simp only [inferType] at h
    simp only [Kept] at hk
    obtain ⟨u, h1, h⟩ := Outcome.bind_eq_ok.mp h
    simp only [Outcome.ok.injEq] at h; subst h
    exact .seq (inferJoin_get (i := 0) (f := .fail) (Format.inferAll_wf hf hI hx fs Γ hΓ hc hk) .any h1).1
  | .tuple fs, Γ, t, hΓ, hc, hk, h => by
    simp only [inferType] at h
    simp only [Kept] at hk
    obtain ⟨u, h1, h⟩ := Outcome.bind_eq_ok.mp h
    simp only [Outcome.ok.injEq] at h; subst h
    exact .tuple (inferList_get (Format.inferAll_wf hf hI hx fs Γ hΓ hc hk) h1)
  | .repeat_ f, Γ, t, hΓ, hc, hk, h => by
    simp only [inferType] at h
    simp only [Kept] at hk
    obtain ⟨u, h1, h⟩ := Outcome.bind_eq_ok.mp h
    simp only [Outcome.ok.injEq] at h; subst h
    exact .seq (Format.infer_wf hf hI hx f Γ u hΓ hc hk h1)
  | .repeat1 f, Γ, t, hΓ, hc, hk, h => by
    simp only [inferType] at h
    simp only [Kept] at hk
    obtain ⟨u, h1, h⟩ := Outcome.bind_eq_ok.mp h
    simp only [Outcome.ok.injEq] at h; subst h
    exact .seq (Format.infer_wf hf hI hx f Γ u hΓ hc hk h1)
  | .liftedSome f, Γ, t, hΓ, hc, hk, h => by
    simp only [inferType] at h
    simp only [Kept] at hk
    obtain ⟨u, h1, h⟩ := Outcome.bind_eq_ok.mp h
    simp only [Outcome.ok.injEq] at h; subst h
    exact .option (Format.infer_wf hf hI hx f Γ u hΓ hc hk h1)
  | .phantom f, Γ, t, hΓ, hc, hk, h => by
    simp only [inferType] at h
    simp only [Kept] at hk
    obtain ⟨u, h1, h⟩ := Outcome.bind_eq_ok.mp h
    simp only [Outcome.ok.injEq] at h; subst h
    exact .phantom (Format.infer_wf hf hI hx f Γ u hΓ hc hk h1)
  | .repeatCount _ f, Γ, t, hΓ, hc, hk, h => by
    simp only [inferType] at h
    simp only [Kept] at hk
    obtain ⟨_, _, h⟩ := Outcome.bind_eq_ok.mp h
    obtain ⟨_, _, h⟩ := Outcome.bind_eq_ok.mp h
    obtain ⟨u, h1, h⟩ := Outcome.bind_eq_ok.mp h
    simp only [Outcome.ok.injEq] at h; subst h
    exact .seq (Format.infer_wf hf hI hx f Γ u hΓ hc hk h1)
  | .maybe _ f, Γ, t, hΓ, hc, hk, h => by
    simp only [inferType] at h
    simp only [Kept] at hk
    obtain ⟨_, _, h⟩ := Outcome.bind_eq_ok.mp h
    obtain ⟨_, _, h⟩ := Outcome.bind_eq_ok.mp h
    obtain ⟨u, h1, h⟩ := Outcome.bind_eq_ok.mp h
    simp only [Outcome.ok.injEq] at h; subst h
    exact .option (Format.infer_wf hf hI hx f Γ u hΓ hc hk h1)
  | .peek f, Γ, t, hΓ, hc, hk, h => by
    simp only [inferType] at h
    simp only [Kept] at hk
    exact Format.infer_wf hf hI hx f Γ t hΓ hc hk h
  | .slice _ f, Γ, t, hΓ, hc, hk, h => by
    simp only [inferType] at h
    simp only [Kept] at hk
    exact Format.infer_wf hf hI hx f Γ t hΓ hc hk h
  | .bits f, Γ, t, hΓ, hc, hk, h => by
    simp only [inferType] at h
    simp only [Kept] at hk
    exact Format.infer_wf hf hI hx f Γ t hΓ hc hk h
  | .withRelativeOffset _ _ f, Γ, t, hΓ, hc, hk, h => by
    simp only [inferType] at h
    simp only [Kept] at hk
    exact Format.infer_wf hf hI hx f Γ t hΓ hc hk h
  | .hint f, Γ, t, hΓ, hc, hk, h => by
    simp only [inferType] at h
    simp only [Kept] at hk
    exact Format.infer_wf hf hI hx f Γ t hΓ hc hk h
  | .enforce f, Γ, t, hΓ, hc, hk, h => by
    simp only [inferType] at h
    simp only [Kept] at hk
    exact Format.infer_wf hf hI hx f Γ t hΓ hc hk h
  | .decodeBytes _ f, Γ, t, hΓ, hc, hk, h => by
    simp only [inferType] at h
    simp only [Kept] at hk
    obtain ⟨_, _, h⟩ := Outcome.bind_eq_ok.mp h
    obtain ⟨_, _, h⟩ := Outcome.bind_eq_ok.mp h
    exact Format.infer_wf hf hI hx f Γ t hΓ hc hk h
  | .parseFromView _ f, Γ, t, hΓ, hc, hk, h => by
    simp only [inferType] at h
    simp only [Kept] at hk
    obtain ⟨_, _, h⟩ := Outcome.bind_eq_ok.mp h
    exact Format.infer_wf hf hI hx f Γ t hΓ hc hk h
  | .monadSeq f g, Γ, t, hΓ, hc, hk, h => by
    simp only [inferType] at h
    simp only [Kept] at hk
    obtain ⟨_, _, h⟩ := Outcome.bind_eq_ok.mp h
    exact Format.infer_wf hf hI hx g Γ t hΓ hc hk h
  | .repeatBetween _ _ f, Γ, t, hΓ, hc, hk, h => by
    simp only [inferType] at h
    simp only [Kept] at hk
    obtain ⟨_, _, h⟩ := Outcome.bind_eq_ok.mp h
    obtain ⟨_, _, h⟩ := Outcome.bind_eq_ok.mp h
    obtain ⟨_, _, h⟩ := Outcome.bind_eq_ok.mp h
    obtain ⟨_, _, h⟩ := Outcome.bind_eq_ok.mp h
    split at h
    · obtain ⟨u, h1, h⟩ := Outcome.bind_eq_ok.mp h
      simp only [Outcome.ok.injEq] at h; subst h
      exact .seq (Format.infer_wf hf hI hx f Γ u hΓ hc hk h1)
    · simp only [reduceCtorEq] at h
  | .repeatUntilLast e f, Γ, t, hΓ, hc, hk, h => by
    simp only [Kept] at hk
    cases e <;> simp only [inferType, reduceCtorEq] at h
    obtain ⟨u, h1, h⟩ := Outcome.bind_eq_ok.mp h
    obtain ⟨_, _, h⟩ := Outcome.bind_eq_ok.mp h
    obtain ⟨_, _, h⟩ := Outcome.bind_eq_ok.mp h
    simp only [Outcome.ok.injEq] at h; subst h
    exact .seq (Format.infer_wf hf hI hx f Γ u hΓ hc hk h1)
  | .repeatUntilSeq e f, Γ, t, hΓ, hc, hk, h => by
    simp only [Kept] at hk
    cases e <;> simp only [inferType, reduceCtorEq] at h
    obtain ⟨u, h1, h⟩ := Outcome.bind_eq_ok.mp h
    obtain ⟨_, _, h⟩ := Outcome.bind_eq_ok.mp h
    obtain ⟨_, _, h⟩ := Outcome.bind_eq_ok.mp h
    simp only [Outcome.ok.injEq] at h; subst h
    exact .seq (Format.infer_wf hf hI hx f Γ u hΓ hc hk h1)
  | .accumUntil done update init ty f, Γ, t, hΓ, hc, hk, h => by
    simp only [Kept] at hk
    cases done <;> simp only [inferType, reduceCtorEq] at h
    obtain ⟨u, h1, h⟩ := Outcome.bind_eq_ok.mp h
    obtain ⟨_, _, h⟩ := Outcome.bind_eq_ok.mp h
    obtain ⟨_, _, h⟩ := Outcome.bind_eq_ok.mp h
    obtain ⟨_, _, h⟩ := Outcome.bind_eq_ok.mp h
    obtain ⟨_, _, h⟩ := Outcome.bind_eq_ok.mp h
    cases update <;> simp only [reduceCtorEq] at h
    obtain ⟨_, _, h⟩ := Outcome.bind_eq_ok.mp h
    obtain ⟨_, _, h⟩ := Outcome.bind_eq_ok.mp h
    simp only [Outcome.ok.injEq] at h; subst h
    exact .tuple (.cons hk.2.2.1 (.cons (.seq (Format.infer_wf hf hI hx f Γ u hΓ hc hk.1 h1)) .nil))
  | .forEach e l f, Γ, t, hΓ, hc, hk, h => by
    simp only [inferType] at h
    simp only [Kept] at hk
    obtain ⟨te, h1, h⟩ := Outcome.bind_eq_ok.mp h
    obtain ⟨u, h2, h⟩ := Outcome.bind_eq_ok.mp h
    rw [ValueType.elemI_eq h2] at h1
    obtain ⟨ti, h3, h⟩ := Outcome.bind_eq_ok.mp h
    simp only [Outcome.ok.injEq] at h; subst h
    have w1 := (Expr.infer_sound (δ := Unit) hf e Γ _ hΓ hk.1 h1).1
    exact .seq (Format.infer_wf hf hI hx f _ ti (hΓ.cons w1.elem) hc.value (hk.2 u h1) h3)
  | .map f e, Γ, t, hΓ, hc, hk, h => by
    by_cases hp : f = .pos
    · subst hp
      simp only [inferType] at h
      simp only [Kept] at hk
      obtain ⟨u, h1, h⟩ := Outcome.bind_eq_ok.mp h
      simp only [Outcome.ok.injEq] at h1
      subst h1
      cases e <;> simp only [reduceCtorEq] at h
      exact (hk.2 t h).1
    · have hk : f.Kept σ m' tys' Γ ∧ ∀ t, f.inferType m' tys' Γ = .ok t → Expr.KeptFn σ Γ t e := by
        cases f <;> first | exact absurd rfl hp | simpa only [Kept] using hk
      simp only [inferType] at h
      obtain ⟨u, h1, h⟩ := Outcome.bind_eq_ok.mp h
      have w := Format.infer_wf hf hI hx f Γ u hΓ hc hk.1 h1
      have k := hk.2 u (Format.infer_ext hx f Γ u h1)
      cases e <;> simp only [reduceCtorEq] at h
      exact (Expr.infer_sound (δ := Unit) hf _ _ _ (hΓ.cons w) k h).1
  | .where_ f e _, Γ, t, hΓ, hc, hk, h => by
    simp only [inferType] at h
    simp only [Kept] at hk
    obtain ⟨u, h1, h⟩ := Outcome.bind_eq_ok.mp h
    cases e <;> simp only [reduceCtorEq] at h
    obtain ⟨_, _, h⟩ := Outcome.bind_eq_ok.mp h
    obtain ⟨_, _, h⟩ := Outcome.bind_eq_ok.mp h
    simp only [Outcome.ok.injEq] at h; subst h
    exact Format.infer_wf hf hI hx f Γ u hΓ hc hk h1
  | .compute e, Γ, t, hΓ, hc, hk, h => by
    simp only [inferType] at h
    simp only [Kept] at hk
    exact (Expr.infer_sound (δ := Unit) hf e Γ t hΓ hk h).1
  | .let_ x e f, Γ, t, hΓ, hc, hk, h => by
    simp only [inferType] at h
    simp only [Kept] at hk
    obtain ⟨u, h1, h⟩ := Outcome.bind_eq_ok.mp h
    exact Format.infer_wf hf hI hx f _ t (hΓ.cons (Expr.infer_sound (δ := Unit) hf e Γ u hΓ hk.1 h1).1) hc.value
      (hk.2 u h1) h
  | .letView x f, Γ, t, hΓ, hc, hk, h => by
    simp only [inferType] at h
    simp only [Kept] at hk
    exact Format.infer_wf hf hI hx f _ t hΓ.view hc.view hk h
  | .letFormat f x g, Γ, t, hΓ, hc, hk, h => by
    by_cases hp : f = .pos
    · subst hp
      simp only [inferType] at h
      simp only [Kept] at hk
      obtain ⟨u, h1, h⟩ := Outcome.bind_eq_ok.mp h
      simp only [Outcome.ok.injEq] at h1
      subst h1
      exact (hk.2 t (Format.infer_ext hx g _ t h)).1
    · have hk : f.Kept σ m' tys' Γ ∧
          ∀ t, f.inferType m' tys' Γ = .ok t → g.Kept σ m' tys' ((x, .value t) :: Γ) := by
        cases f <;> first | exact absurd rfl hp | simpa only [Kept] using hk
      simp only [inferType] at h
      obtain ⟨u, h1, h⟩ := Outcome.bind_eq_ok.mp h
      exact Format.infer_wf hf hI hx g _ t (hΓ.cons (Format.infer_wf hf hI hx f Γ u hΓ hc hk.1 h1)) hc.value
        (hk.2 u (Format.infer_ext hx f Γ u h1)) h
  | .permit f e, Γ, t, hΓ, hc, hk, h => by
    simp only [inferType] at h
    simp only [Kept] at hk
    obtain ⟨t0, h1, h⟩ := Outcome.bind_eq_ok.mp h
    obtain ⟨t1, h2, h⟩ := Outcome.bind_eq_ok.mp h
    exact (ValueType.unify_upper t0 t1 t (Expr.infer_sound (δ := Unit) hf e Γ t0 hΓ hk.2.2 h1).1
      (Format.infer_wf hf hI hx f Γ t1 hΓ hc hk.2.1 h2) (ValueType.unifyI_eq h)).1
  | .match_ head bs, Γ, t, hΓ, hc, hk, h => by
    simp only [inferType] at h
    simp only [Kept] at hk
    split at h
    · simp only [reduceCtorEq] at h
    · obtain ⟨th, h1, h⟩ := Outcome.bind_eq_ok.mp h
      have w := (Expr.infer_sound (δ := Unit) hf head Γ th hΓ hk.1 h1).1
      exact (inferBranches_get (i := 0) (p := .wildcard) (f := .fail)
        (Format.inferBrs_wf hf hI hx bs Γ th hΓ w hc (hk.2 th h1)) .any h).1
  | .dynamic x _ _ f, Γ, t, hΓ, hc, hk, h => by
    simp only [inferType] at h
    simp only [Kept] at hk
    obtain ⟨_, _, h⟩ := Outcome.bind_eq_ok.mp h
    obtain ⟨_, _, h⟩ := Outcome.bind_eq_ok.mp h
    exact Format.infer_wf hf hI hx f _ t hΓ.format hc.format hk h
  | .apply x, Γ, t, hΓ, hc, hk, h => by
    simp only [inferType] at h
    obtain ⟨k, h1, h⟩ := Outcome.bind_eq_ok.mp h
    cases k <;> simp only [reduceCtorEq, Outcome.ok.injEq] at h
    subst h
    rw [hc x _ (TypeScope.get_mem h1)]
    exact .base
  | .captureBytes _ _, Γ, t, hΓ, hc, hk, h => by
    simp only [inferType] at h
    obtain ⟨_, _, h⟩ := Outcome.bind_eq_ok.mp h
    obtain ⟨_, _, h⟩ := Outcome.bind_eq_ok.mp h
    rw [needNumeric_eq h]
    exact .seq .base
  | .readArray _ _ _, Γ, t, hΓ, hc, hk, h => by
    simp only [inferType] at h
    obtain ⟨_, _, h⟩ := Outcome.bind_eq_ok.mp h
    obtain ⟨_, _, h⟩ := Outcome.bind_eq_ok.mp h
    rw [needNumeric_eq h]
    exact .seq .base
  | .reifyView _, Γ, t, hΓ, hc, hk, h => by
    simp only [inferType] at h
    obtain ⟨_, _, h⟩ := Outcome.bind_eq_ok.mp h
    simp only [Outcome.ok.injEq] at h; subst h
    exact .viewObj

theorem Format.inferAll_wf {σ : Slack} {m m' : Module} {tys tys' : List ItemTypes} (hf : σ.fallbacks ≠ .typed)
    (hI : ItemsWF tys) (hx : Module.Ext m tys m' tys') : ∀ (fs : List Format) (Γ : TypeScope), Γ.WF → Γ.Codes →
    Format.KeptList σ m' tys' fs Γ → ∀ f ∈ fs, ∀ t, f.inferType m tys Γ = .ok t → t.WF
  | [], _, _, _, _, _, h => nomatch h
  | f :: fs, Γ, hΓ, hc, hk, g, hg => by
    simp only [KeptList] at hk
    rcases List.mem_cons.mp hg with e | hg
    · intro t h
      rw [e] at h
      exact Format.infer_wf hf hI hx f Γ t hΓ hc hk.1 h
    · exact Format.inferAll_wf hf hI hx fs Γ hΓ hc hk.2 g hg

theorem Format.inferBrs_wf {σ : Slack} {m m' : Module} {tys tys' : List ItemTypes} (hf : σ.fallbacks ≠ .typed)
    (hI : ItemsWF tys) (hx : Module.Ext m tys m' tys') : ∀ (bs : List (Pattern × Format)) (Γ : TypeScope) (th : ValueType), Γ.WF → th.WF →
    Γ.Codes → Format.KeptBranches σ m' tys' bs Γ th →
    ∀ p f, (p, f) ∈ bs → ∀ Γ' t, p.buildScope Γ th = .ok Γ' → f.inferType m tys Γ' = .ok t → t.WF
  | [], _, _, _, _, _, _, _, _, h => nomatch h
  | (q, f) :: bs, Γ, th, hΓ, hth, hc, hk, p, g, hg => by
    simp only [KeptBranches] at hk
    rcases List.mem_cons.mp hg with e | hg
    · intro Γ' t h0 h
      simp only [Prod.mk.injEq] at e
      rw [e.1] at h0
      rw [e.2] at h
      exact Format.infer_wf hf hI hx f Γ' t (Pattern.build_wf q th Γ Γ' h0 hth hΓ)
        (Pattern.build_codes q th Γ Γ' h0 hth hc) (hk.1 Γ' h0) h
    · exact Format.inferBrs_wf hf hI hx bs Γ th hΓ hth hc hk.2 p g hg
end

/-- the entries bind the same names, to values of the types -/
inductive Entries (σ : Slack) : List (String × ViewOrValue) → List (String × ValueKind) → Prop
  | nil : Entries σ [] []
  | cons {x v t es ts} : v.HasType σ t → Entries σ es ts → Entries σ ((x, .value v) :: es) ((x, .value t) :: ts)

theorem Entries.append {es es' : List (String × ViewOrValue)} {ts ts' : List (String × ValueKind)}
    (h : Entries σ es ts) (h' : Entries σ es' ts') : Entries σ (es ++ es') (ts ++ ts') := by
  induction h with
  | nil => exact h'
  | cons hv _ ih => exact .cons hv ih

theorem Entries.reverse {es : List (String × ViewOrValue)} {ts : List (String × ValueKind)}
    (h : Entries σ es ts) : Entries σ es.reverse ts.reverse := by
  induction h with
  | nil => exact .nil
  | cons hv _ ih =>
    rw [List.reverse_cons, List.reverse_cons]
    exact ih.append (.cons hv .nil)

theorem Entries.find {es : List (String × ViewOrValue)} {ts : TypeScope} (h : Entries σ es ts) {x : String}
    {t : ValueType} {v : Value} (ht : TypeScope.get x ts = .ok (.value t)) (hv : Scope.findValue x es = some v) :
    v.HasType σ t := by
  induction h with
  | nil => cases hv
  | cons hw _ ih =>
    simp only [TypeScope.get] at ht
    simp only [Scope.findValue] at hv
    split at ht
    · rename_i e
      rw [if_pos e] at hv
      cases ht; cases hv
      exact hw
    · rename_i e
      rw [if_neg e] at hv
      exact ih ht hv

/-- all entries are views -/
inductive AllViews : List (String × ViewOrValue) → Prop
  | nil : AllViews []
  | cons {x c es} : AllViews es → AllViews ((x, .view c) :: es)

theorem AllViews.append {a b : List (String × ViewOrValue)} (h : AllViews a) (h' : AllViews b) :
    AllViews (a ++ b) := by
  induction h with
  | nil => exact h'
  | cons _ ih => exact .cons ih

theorem AllViews.reverse {a : List (String × ViewOrValue)} (h : AllViews a) : AllViews a.reverse := by
  induction h with
  | nil => exact .nil
  | cons _ ih => rw [List.reverse_cons]; exact ih.append (.cons .nil)

theorem AllViews.find {a b : List (String × ViewOrValue)} (h : AllViews a) {x : String} :
    Scope.findValue x (a ++ b) = Scope.findValue x b := by
  induction h with
  | nil => rfl
  | cons _ ih =>
    simp only [List.cons_append, Scope.findValue]
    split <;> exact ih

theorem viewsAre_views {s : Scope Format} {as : List (String × ViewExpr)} {vs : List (String × ViewOrValue)}
    (h : ViewsAre s as vs) : AllViews vs := by
  induction h with
  | nil => exact .nil
  | cons _ _ ih => exact .cons ih

theorem get_views {views : List (String × ValueKind)} (hv : ∀ e ∈ views, e.2 = .view) {Γ : TypeScope} {x : String}
    {t : ValueType} (h : TypeScope.get x (views ++ Γ) = .ok (.value t)) : TypeScope.get x Γ = .ok (.value t) := by
  induction views with
  | nil => exact h
  | cons e views ih =>
    obtain ⟨n, k⟩ := e
    have : k = .view := hv (n, k) (List.mem_cons_self ..)
    subst this
    simp only [List.cons_append, TypeScope.get] at h
    split at h
    · cases h
    · exact ih (fun e he => hv e (List.mem_cons_of_mem _ he)) h

theorem args_entries {s : Scope Format} {Γ : TypeScope} (hf : σ.fallbacks ≠ .typed) (hΓ : Γ.WF)
    (hs : s.Agrees σ Γ) : ∀ {names : List String} {ts : List ValueType} {args : List Expr}
    {es : List (String × ViewOrValue)}, names.length = ts.length → names.length = args.length →
    Expr.KeptArgs σ Γ ts args → Expr.checkArgs Γ ts args = .ok () → ArgsAre s (names.zip args) es →
    Entries σ es ((names.zip ts).map fun a => (a.1, .value a.2))
  | [], _, _, _, _, _, _, _, h => by
    simp only [List.zip_nil_left] at h
    cases h
    exact .nil
  | n :: names, [], _, _, hl, _, _, _, _ => by simp at hl
  | n :: names, t :: ts, [], _, _, hl, _, _, _ => by simp at hl
  | n :: names, t :: ts, e :: args, es, hl, hl', hk, hc, h => by
    simp only [Expr.KeptArgs] at hk
    simp only [Expr.checkArgs] at hc
    obtain ⟨u, h1, hc⟩ := Outcome.bind_eq_ok.mp hc
    obtain ⟨_, _, hc⟩ := Outcome.bind_eq_ok.mp hc
    simp only [List.zip_cons_cons] at h
    cases h with
    | cons hd h =>
      simp only [List.zip_cons_cons, List.map_cons]
      exact .cons ((denotes_typed hf hΓ hk.1 h1 hs hd).mono (hk.2.1 u h1))
        (args_entries hf hΓ hs (by simpa using hl) (by simpa using hl') hk.2.2 hc h)

theorem item_agrees {names views : List String} {ts : List ValueType} {es vs : List (String × ViewOrValue)}
    (he : Entries σ es ((names.zip ts).map fun a => (a.1, .value a.2))) (hv : AllViews vs) :
    (Scope.multi (es ++ vs) .empty : Scope Format).Agrees σ (TypeScope.ofItem (names.zip ts) views) := by
  intro x t v ht hx
  unfold TypeScope.ofItem at ht
  have ht := get_views (by
    intro e he
    rw [List.mem_reverse, List.mem_map] at he
    obtain ⟨_, _, rfl⟩ := he
    rfl) ht
  simp only [Scope.getValue] at hx
  rw [List.reverse_append, hv.reverse.find] at hx
  split at hx
  · rename_i w hw
    cases hx
    exact he.reverse.find ht hw
  · cases hx

theorem pos_typed {c : ReadCtxt} : (Value.num (.fixed .b64) (Fin.ofNat _ c.offset)).HasType σ (.u .b64) := by
  simp only [Value.HasType, ValueType.u]

theorem seq_typed {vs : List Value} {t : ValueType} (h : ∀ v ∈ vs, v.HasType σ t) :
    (Value.seq (.strict vs)).HasType σ (.seq t) := by
  simp only [Value.HasType]
  exact ⟨t, rfl, Value.allHave_iff.mpr h⟩

set_option maxHeartbeats 4000000 in
mutual
theorem _root_.Doodle.Grammar.Parses.typed {σ : Slack} {m : Module} {tys : List ItemTypes}
    {rej : Format → Scope Format → ReadCtxt → Prop} (hf : σ.fallbacks ≠ .typed)
    (hM : m.Typed tys) (hK : m.Kept σ tys) (hI : ItemsWF tys) :
    ∀ {f : Format} {s : Scope Format} {c : ReadCtxt} {v : Value} {c' : ReadCtxt} {k : Nat},
    Parses m rej f s c v c' k → ∀ (Γ : TypeScope) (t : ValueType), Γ.WF → Γ.Codes → s.Agrees σ Γ →
    s.Codes σ m rej → f.Kept σ m tys Γ → f.inferType m tys Γ = .ok t → v.HasType σ t
  | _, _, _, _, _, _, .itemVar (level := level) (args := args) (views := views) (it := it) hi ha hv hp, Γ, t, hΓ, hc, hs, hd, hk, h => by
    simp only [Format.inferType] at h
    simp only [Format.Kept] at hk
    obtain ⟨it', h1, h⟩ := Outcome.bind_eq_ok.mp h
    obtain ⟨ty, h2, h⟩ := Outcome.bind_eq_ok.mp h
    have h1 := Outcome.ofPanicky_eq_ok.mp h1
    unfold Module.get at h1
    rw [hi] at h1
    simp only [Panicky.unwrap, Panicky.ok.injEq] at h1
    subst h1
    have hty : tys[level]? = some ty := by
      have h2 := Outcome.ofPanicky_eq_ok.mp h2
      cases hg : tys[level]? with
      | none => rw [hg] at h2; simp only [Panicky.unwrap, reduceCtorEq] at h2
      | some x =>
        rw [hg] at h2; simp only [Panicky.unwrap, Panicky.ok.injEq] at h2; rw [h2]
    split at h
    · rename_i hl
      split at h
      · obtain ⟨u, hca, h⟩ := Outcome.bind_eq_ok.mp h
        simp only [Outcome.ok.injEq] at h
        subst h
        obtain ⟨hl', hft⟩ := hM level it ty hi hty
        obtain ⟨hw, hkf⟩ := hK level it ty hi hty
        have hent := args_entries hf hΓ hs hl' hl (hk ty hty) hca ha
        exact Parses.typed hf hM hK hI hp _ _ (TypeScope.WF.ofItem hw) TypeScope.Codes.ofItem
          (item_agrees hent (viewsAre_views hv)) (fun x g hg => by cases hg) hkf hft
      · simp only [reduceCtorEq] at h
    · simp only [reduceCtorEq] at h
  | _, _, _, _, _, _, .endOfInput _, Γ, t, hΓ, hc, hs, hd, hk, h => by
    simp only [Format.inferType, Outcome.ok.injEq] at h; subst h
    simp only [Value.unit, ValueType.unit, Value.HasType]
    exact ⟨_, rfl, by simp only [Value.HaveTypes]⟩
  | _, _, _, _, _, _, .align .., Γ, t, hΓ, hc, hs, hd, hk, h => by
    simp only [Format.inferType, Outcome.ok.injEq] at h; subst h
    simp only [Value.unit, ValueType.unit, Value.HasType]
    exact ⟨_, rfl, by simp only [Value.HaveTypes]⟩
  | _, _, _, _, _, _, .skipRemainder, Γ, t, hΓ, hc, hs, hd, hk, h => by
    simp only [Format.inferType, Outcome.ok.injEq] at h; subst h
    simp only [Value.unit, ValueType.unit, Value.HasType]
    exact ⟨_, rfl, by simp only [Value.HaveTypes]⟩
  | _, _, _, _, _, _, .peekNot .., Γ, t, hΓ, hc, hs, hd, hk, h => by
    simp only [Format.inferType, Outcome.ok.injEq] at h; subst h
    simp only [ValueType.unit, Value.HasType]
    exact ⟨_, rfl, by simp only [Value.HaveTypes]⟩
  | _, _, _, _, _, _, .byte .., Γ, t, hΓ, hc, hs, hd, hk, h => by
    simp only [Format.inferType, Outcome.ok.injEq] at h; subst h
    simp only [Value.u8, ValueType.u, Value.HasType]
  | _, _, _, _, _, _, .variant (f := f) hp, Γ, t, hΓ, hc, hs, hd, hk, h => by
    simp only [Format.inferType] at h
    simp only [Format.Kept] at hk
    obtain ⟨u, h1, h⟩ := Outcome.bind_eq_ok.mp h
    simp only [Outcome.ok.injEq] at h; subst h
    simp only [Value.HasType]
    exact ⟨_, u, rfl, by simp [TMap.get], Parses.typed hf hM hK hI hp Γ u hΓ hc hs hd hk h1⟩
  | _, _, _, _, _, _, .union (fs := fs) (i := i) (f := f) hi hp, Γ, t, hΓ, hc, hs, hd, hk, h => by
    simp only [Format.inferType] at h
    simp only [Format.Kept] at hk
    simp only [Value.HasType]
    obtain ⟨_, _, h3⟩ := inferJoin_get (i := i) (f := f) (Format.inferAll_wf hf hI .refl fs Γ hΓ hc hk) .any h
    obtain ⟨u, hu, hle⟩ := h3 hi
    exact (Parses.typed hf hM hK hI hp Γ u hΓ hc hs hd (hk.mem (List.mem_of_getElem? hi)) hu).mono hle
  | _, _, _, _, _, _, .unionNondet (fs := fs) (i := i) (f := f) hi _ hp, Γ, t, hΓ, hc, hs, hd, hk, h => by
    simp only [Format.inferType] at h
    simp only [Format.Kept] at hk
    simp only [Value.HasType]
    obtain ⟨_, _, h3⟩ := inferJoin_get (i := i) (f := f) (Format.inferAll_wf hf hI .refl fs Γ hΓ hc hk) .any h
    obtain ⟨u, hu, hle⟩ := h3 hi
    exact (Parses.typed hf hM hK hI hp Γ u hΓ hc hs hd (hk.mem (List.mem_of_getElem? hi)) hu).mono hle
  | _, _, _, _, _, _, .tuple (fs := fs) hp, Γ, t, hΓ, hc, hs, hd, hk, h => by
    simp only [Format.inferType] at h
    simp only [Format.Kept] at hk
    obtain ⟨ts, h1, h⟩ := Outcome.bind_eq_ok.mp h
    simp only [Outcome.ok.injEq] at h; subst h
    simp only [Value.HasType]
    exact ⟨ts, rfl, (ParsesFields.typed hf hM hK hI hp Γ hΓ hc hs hd hk).1 ts h1⟩
  | _, _, _, _, _, _, .sequence (fs := fs) hp, Γ, t, hΓ, hc, hs, hd, hk, h => by
    simp only [Format.inferType] at h
    simp only [Format.Kept] at hk
    obtain ⟨u, h1, h⟩ := Outcome.bind_eq_ok.mp h
    simp only [Outcome.ok.injEq] at h; subst h
    refine seq_typed ((ParsesFields.typed hf hM hK hI hp Γ hΓ hc hs hd hk).2 u ?_)
    intro f hfm
    obtain ⟨i, hi⟩ := List.mem_iff_getElem?.mp hfm
    exact (inferJoin_get (i := i) (f := f) (Format.inferAll_wf hf hI .refl fs Γ hΓ hc hk) .any h1).2.2 hi
  | _, _, _, _, _, _, .repeat_ (f := f) hp, Γ, t, hΓ, hc, hs, hd, hk, h => by
    simp only [Format.inferType] at h
    simp only [Format.Kept] at hk
    obtain ⟨u, h1, h⟩ := Outcome.bind_eq_ok.mp h
    simp only [Outcome.ok.injEq] at h; subst h
    exact seq_typed (ParsesMany.typed hf hM hK hI hp Γ u hΓ hc hs hd hk h1)
  | _, _, _, _, _, _, .repeat1 (f := f) hp _, Γ, t, hΓ, hc, hs, hd, hk, h => by
    simp only [Format.inferType] at h
    simp only [Format.Kept] at hk
    obtain ⟨u, h1, h⟩ := Outcome.bind_eq_ok.mp h
    simp only [Outcome.ok.injEq] at h; subst h
    exact seq_typed (ParsesMany.typed hf hM hK hI hp Γ u hΓ hc hs hd hk h1)
  | _, _, _, _, _, _, .repeatCount (f := f) _ hp _, Γ, t, hΓ, hc, hs, hd, hk, h => by
    simp only [Format.inferType] at h
    simp only [Format.Kept] at hk
    obtain ⟨_, _, h⟩ := Outcome.bind_eq_ok.mp h
    obtain ⟨_, _, h⟩ := Outcome.bind_eq_ok.mp h
    obtain ⟨u, h1, h⟩ := Outcome.bind_eq_ok.mp h
    simp only [Outcome.ok.injEq] at h; subst h
    exact seq_typed (ParsesMany.typed hf hM hK hI hp Γ u hΓ hc hs hd hk h1)
  | _, _, _, _, _, _, .repeatBetween (f := f) _ _ hp _ _, Γ, t, hΓ, hc, hs, hd, hk, h => by
    simp only [Format.inferType] at h
    simp only [Format.Kept] at hk
    obtain ⟨_, _, h⟩ := Outcome.bind_eq_ok.mp h
    obtain ⟨_, _, h⟩ := Outcome.bind_eq_ok.mp h
    obtain ⟨_, _, h⟩ := Outcome.bind_eq_ok.mp h
    obtain ⟨_, _, h⟩ := Outcome.bind_eq_ok.mp h
    split at h
    · obtain ⟨u, h1, h⟩ := Outcome.bind_eq_ok.mp h
      simp only [Outcome.ok.injEq] at h; subst h
      exact seq_typed (ParsesMany.typed hf hM hK hI hp Γ u hΓ hc hs hd hk h1)
    · simp only [reduceCtorEq] at h
  | _, _, _, _, _, _, .repeatUntilLast (e := e) (f := f) hp _ _, Γ, t, hΓ, hc, hs, hd, hk, h => by
    simp only [Format.Kept] at hk
    cases e <;> simp only [Format.inferType, reduceCtorEq] at h
    obtain ⟨u, h1, h⟩ := Outcome.bind_eq_ok.mp h
    obtain ⟨_, _, h⟩ := Outcome.bind_eq_ok.mp h
    obtain ⟨_, _, h⟩ := Outcome.bind_eq_ok.mp h
    simp only [Outcome.ok.injEq] at h; subst h
    exact seq_typed (ParsesMany.typed hf hM hK hI hp Γ u hΓ hc hs hd hk h1)
  | _, _, _, _, _, _, .repeatUntilSeq (e := e) (f := f) hp _ _ _, Γ, t, hΓ, hc, hs, hd, hk, h => by
    simp only [Format.Kept] at hk
    cases e <;> simp only [Format.inferType, reduceCtorEq] at h
    obtain ⟨u, h1, h⟩ := Outcome.bind_eq_ok.mp h
    obtain ⟨_, _, h⟩ := Outcome.bind_eq_ok.mp h
    obtain ⟨_, _, h⟩ := Outcome.bind_eq_ok.mp h
    simp only [Outcome.ok.injEq] at h; subst h
    exact seq_typed (ParsesMany.typed hf hM hK hI hp Γ u hΓ hc hs hd hk h1)
  | _, _, _, _, _, _, .accumUntil (done := done) (update := update) (init := init) (ty := ty) (f := f) h0 hp ha, Γ, t, hΓ, hc, hs, hd, hk, h => by
    simp only [Format.Kept] at hk
    obtain ⟨kf, ki, wty, lei, ku⟩ := hk
    cases done <;> simp only [Format.inferType, reduceCtorEq] at h
    obtain ⟨u, h1, h⟩ := Outcome.bind_eq_ok.mp h
    obtain ⟨t0, h2, h⟩ := Outcome.bind_eq_ok.mp h
    obtain ⟨_, _, h⟩ := Outcome.bind_eq_ok.mp h
    obtain ⟨_, _, h⟩ := Outcome.bind_eq_ok.mp h
    obtain ⟨_, _, h⟩ := Outcome.bind_eq_ok.mp h
    cases update <;> simp only [reduceCtorEq] at h
    obtain ⟨_, _, h⟩ := Outcome.bind_eq_ok.mp h
    obtain ⟨_, _, h⟩ := Outcome.bind_eq_ok.mp h
    simp only [Outcome.ok.injEq] at h; subst h
    have hv := ParsesMany.typed hf hM hK hI hp Γ u hΓ hc hs hd kf h1
    obtain ⟨kb, tu, htu, hle⟩ := ku u h1
    simp only [Value.HasType]
    refine ⟨_, rfl, ?_⟩
    simp only [Value.HaveTypes]
    exact ⟨accum_typed hf hΓ (Format.infer_wf hf hI .refl f Γ u hΓ hc kf h1) wty kb htu hle hs ha
      ((denotes_typed hf hΓ ki h2 hs h0).mono (lei t0 h2)) hv, seq_typed hv, trivial⟩
  | _, _, _, _, _, _, .forEach (e := e) (l := l) (f := f) hit hp, Γ, t, hΓ, hc, hs, hd, hk, h => by
    simp only [Format.inferType] at h
    simp only [Format.Kept] at hk
    obtain ⟨te, h1, h⟩ := Outcome.bind_eq_ok.mp h
    obtain ⟨u, h2, h⟩ := Outcome.bind_eq_ok.mp h
    rw [ValueType.elemI_eq h2] at h1
    obtain ⟨ti, h3, h⟩ := Outcome.bind_eq_ok.mp h
    simp only [Outcome.ok.injEq] at h; subst h
    have w1 := (Expr.infer_sound (δ := Unit) hf e Γ _ hΓ hk.1 h1).1
    exact seq_typed (ParsesEach.typed hf hM hK hI hp Γ u ti hΓ w1.elem hc hs hd (hk.2 u h1) h3
      (denotesItems_typed hf hΓ hk.1 h1 hs hit))
  | _, _, _, _, _, _, .maybe_some (f := f) _ hp, Γ, t, hΓ, hc, hs, hd, hk, h => by
    simp only [Format.inferType] at h
    simp only [Format.Kept] at hk
    obtain ⟨_, _, h⟩ := Outcome.bind_eq_ok.mp h
    obtain ⟨_, _, h⟩ := Outcome.bind_eq_ok.mp h
    obtain ⟨u, h1, h⟩ := Outcome.bind_eq_ok.mp h
    simp only [Outcome.ok.injEq] at h; subst h
    simp only [Value.HasType]
    exact ⟨u, rfl, Parses.typed hf hM hK hI hp Γ u hΓ hc hs hd hk h1⟩
  | _, _, _, _, _, _, .maybe_none _, Γ, t, hΓ, hc, hs, hd, hk, h => by
    simp only [Format.inferType] at h
    obtain ⟨_, _, h⟩ := Outcome.bind_eq_ok.mp h
    obtain ⟨_, _, h⟩ := Outcome.bind_eq_ok.mp h
    obtain ⟨u, h1, h⟩ := Outcome.bind_eq_ok.mp h
    simp only [Outcome.ok.injEq] at h; subst h
    simp only [Value.HasType]
    exact ⟨u, rfl⟩
  | _, _, _, _, _, _, .peek (f := f) hp, Γ, t, hΓ, hc, hs, hd, hk, h => by
    simp only [Format.inferType] at h
    simp only [Format.Kept] at hk
    exact Parses.typed hf hM hK hI hp Γ t hΓ hc hs hd hk h
  | _, _, _, _, _, _, .slice (f := f) _ _ hp, Γ, t, hΓ, hc, hs, hd, hk, h => by
    simp only [Format.inferType] at h
    simp only [Format.Kept] at hk
    exact Parses.typed hf hM hK hI hp Γ t hΓ hc hs hd hk h
  | _, _, _, _, _, _, .bits (f := f) _ hp, Γ, t, hΓ, hc, hs, hd, hk, h => by
    simp only [Format.inferType] at h
    simp only [Format.Kept] at hk
    exact Parses.typed hf hM hK hI hp Γ t hΓ hc hs hd hk h
  | _, _, _, _, _, _, .withRelativeOffset (f := f) _ _ _ hp, Γ, t, hΓ, hc, hs, hd, hk, h => by
    simp only [Format.inferType] at h
    simp only [Format.Kept] at hk
    exact Parses.typed hf hM hK hI hp Γ t hΓ hc hs hd hk h
  | _, _, _, _, _, _, .hint (f := f) hp, Γ, t, hΓ, hc, hs, hd, hk, h => by
    simp only [Format.inferType] at h
    simp only [Format.Kept] at hk
    exact Parses.typed hf hM hK hI hp Γ t hΓ hc hs hd hk h
  | _, _, _, _, _, _, .enforce (f := f) hp, Γ, t, hΓ, hc, hs, hd, hk, h => by
    simp only [Format.inferType] at h
    simp only [Format.Kept] at hk
    exact Parses.typed hf hM hK hI hp Γ t hΓ hc hs hd hk h
  | _, _, _, _, _, _, .decodeBytes (f := f) _ _ hp _, Γ, t, hΓ, hc, hs, hd, hk, h => by
    simp only [Format.inferType] at h
    simp only [Format.Kept] at hk
    obtain ⟨_, _, h⟩ := Outcome.bind_eq_ok.mp h
    obtain ⟨_, _, h⟩ := Outcome.bind_eq_ok.mp h
    exact Parses.typed hf hM hK hI hp Γ t hΓ hc hs hd hk h
  | _, _, _, _, _, _, .decodeBytes_trailing (f := f) _ _ hp _, Γ, t, hΓ, hc, hs, hd, hk, h => by
    simp only [Format.inferType] at h
    simp only [Format.Kept] at hk
    obtain ⟨_, _, h⟩ := Outcome.bind_eq_ok.mp h
    obtain ⟨_, _, h⟩ := Outcome.bind_eq_ok.mp h
    exact Parses.typed hf hM hK hI hp Γ t hΓ hc hs hd hk h
  | _, _, _, _, _, _, .parseFromView (f := f) _ hp, Γ, t, hΓ, hc, hs, hd, hk, h => by
    simp only [Format.inferType] at h
    simp only [Format.Kept] at hk
    obtain ⟨_, _, h⟩ := Outcome.bind_eq_ok.mp h
    exact Parses.typed hf hM hK hI hp Γ t hΓ hc hs hd hk h
  | _, _, _, _, _, _, .monadSeq (f := f) (g := g) _ hp, Γ, t, hΓ, hc, hs, hd, hk, h => by
    simp only [Format.inferType] at h
    simp only [Format.Kept] at hk
    obtain ⟨_, _, h⟩ := Outcome.bind_eq_ok.mp h
    exact Parses.typed hf hM hK hI hp Γ t hΓ hc hs hd hk h
  | _, _, _, _, _, _, .map (f := f) (e := e) hp hse, Γ, t, hΓ, hc, hs, hd, hk, h => by
    simp only [Value.HasType]
    by_cases hpos : f = .pos
    · subst hpos
      simp only [Format.inferType] at h
      simp only [Format.Kept] at hk
      obtain ⟨u, h1, h⟩ := Outcome.bind_eq_ok.mp h
      simp only [Outcome.ok.injEq] at h1
      subst h1
      cases e <;> simp only [reduceCtorEq] at h
      obtain ⟨_, t', ht', hle⟩ := hk.2 t h
      cases hp
      exact (sends_typed hf hΓ .base hk.1 ht' hs pos_typed hse).mono hle
    · have hk : f.Kept σ m tys Γ ∧ ∀ t, f.inferType m tys Γ = .ok t → Expr.KeptFn σ Γ t e := by
        cases f <;> first | exact absurd rfl hpos | simpa only [Format.Kept] using hk
      simp only [Format.inferType] at h
      obtain ⟨u, h1, h⟩ := Outcome.bind_eq_ok.mp h
      have w := Format.infer_wf hf hI .refl f Γ u hΓ hc hk.1 h1
      have k := hk.2 u h1
      have hv := Parses.typed hf hM hK hI hp Γ u hΓ hc hs hd hk.1 h1
      cases e <;> simp only [reduceCtorEq] at h
      exact sends_typed hf hΓ w k h hs hv hse
  | _, _, _, _, _, _, .where_ (f := f) (e := e) hp _, Γ, t, hΓ, hc, hs, hd, hk, h => by
    simp only [Format.inferType] at h
    simp only [Format.Kept] at hk
    obtain ⟨u, h1, h⟩ := Outcome.bind_eq_ok.mp h
    have hv := Parses.typed hf hM hK hI hp Γ u hΓ hc hs hd hk h1
    cases e <;> simp only [reduceCtorEq] at h
    obtain ⟨_, _, h⟩ := Outcome.bind_eq_ok.mp h
    obtain ⟨_, _, h⟩ := Outcome.bind_eq_ok.mp h
    simp only [Outcome.ok.injEq] at h; subst h
    exact hv
  | _, _, _, _, _, _, .where_lenient (f := f) (e := e) hp _, Γ, t, hΓ, hc, hs, hd, hk, h => by
    simp only [Format.inferType] at h
    simp only [Format.Kept] at hk
    obtain ⟨u, h1, h⟩ := Outcome.bind_eq_ok.mp h
    have hv := Parses.typed hf hM hK hI hp Γ u hΓ hc hs hd hk h1
    cases e <;> simp only [reduceCtorEq] at h
    obtain ⟨_, _, h⟩ := Outcome.bind_eq_ok.mp h
    obtain ⟨_, _, h⟩ := Outcome.bind_eq_ok.mp h
    simp only [Outcome.ok.injEq] at h; subst h
    exact hv
  | _, _, _, _, _, _, .compute (e := e) hde, Γ, t, hΓ, hc, hs, hd, hk, h => by
    simp only [Format.inferType] at h
    simp only [Format.Kept] at hk
    exact denotes_typed hf hΓ hk h hs hde
  | _, _, _, _, _, _, .let_ (e := e) (f := f) hde hp, Γ, t, hΓ, hc, hs, hd, hk, h => by
    simp only [Format.inferType] at h
    simp only [Format.Kept] at hk
    obtain ⟨u, h1, h⟩ := Outcome.bind_eq_ok.mp h
    exact Parses.typed hf hM hK hI hp _ t (hΓ.cons (Expr.infer_sound (δ := Unit) hf e Γ u hΓ hk.1 h1).1)
      hc.value (hs.single (denotes_typed hf hΓ hk.1 h1 hs hde)) (fun x g hg => hd x g hg) (hk.2 u h1) h
  | _, _, _, _, _, _, .match_ (head := head) (branches := bs) (i := i) (p := p) (f := f) hh hi hm _ hp, Γ, t, hΓ, hc, hs, hd, hk, h => by
    simp only [Format.inferType] at h
    simp only [Format.Kept] at hk
    simp only [Value.HasType]
    split at h
    · simp only [reduceCtorEq] at h
    · obtain ⟨th, h1, h⟩ := Outcome.bind_eq_ok.mp h
      obtain ⟨w, hsound⟩ := Expr.infer_sound (δ := Format) hf head Γ th hΓ hk.1 h1
      obtain ⟨_, _, h3⟩ := inferBranches_get (i := i) (p := p) (f := f)
        (Format.inferBrs_wf hf hI .refl bs Γ th hΓ w hc (hk.2 th h1)) .any h
      obtain ⟨Γ', u, hb, hu, hle⟩ := h3 hi
      exact (Parses.typed hf hM hK hI hp Γ' u (Pattern.build_wf p th Γ Γ' hb w hΓ)
        (Pattern.build_codes p th Γ Γ' hb w hc) (Pattern.matches_agrees hb hm (hsound _ _ hs hh) hs)
        (fun x g hg => hd x g hg) ((hk.2 th h1).mem (List.mem_of_getElem? hi) hb) hu).mono hle
  | _, _, _, _, _, _, .dynamic (f := f) _ hg hp, Γ, t, hΓ, hc, hs, hd, hk, h => by
    simp only [Format.inferType] at h
    simp only [Format.Kept] at hk
    obtain ⟨_, _, h⟩ := Outcome.bind_eq_ok.mp h
    obtain ⟨_, _, h⟩ := Outcome.bind_eq_ok.mp h
    exact Parses.typed hf hM hK hI hp _ t hΓ.format hc.format hs.decoder
      (hd.decoder fun s' c v c' k hp => huffman_typed hg s' c v c' k hp) hk h
  | _, _, _, _, _, _, .apply (x := x) hg hp, Γ, t, hΓ, hc, hs, hd, hk, h => by
    simp only [Format.inferType] at h
    obtain ⟨k, h1, h⟩ := Outcome.bind_eq_ok.mp h
    cases k <;> simp only [reduceCtorEq, Outcome.ok.injEq] at h
    subst h
    rw [hc x _ (TypeScope.get_mem h1)]
    exact hd x _ hg _ _ _ _ _ hp
  | _, _, _, _, _, _, .pos, Γ, t, hΓ, hc, hs, hd, hk, h => by simp only [Format.Kept] at hk
  | _, _, _, _, _, _, .letFormat (f := f) (x := x) (g := g) (v := w) hp hq, Γ, t, hΓ, hc, hs, hd, hk, h => by
    by_cases hpos : f = .pos
    · subst hpos
      simp only [Format.inferType] at h
      simp only [Format.Kept] at hk
      obtain ⟨u, h1, h⟩ := Outcome.bind_eq_ok.mp h
      simp only [Outcome.ok.injEq] at h1
      subst h1
      obtain ⟨_, t', ht', hle⟩ := hk.2 t h
      have hv : w.HasType σ (.u .b64) := by
        cases hp
        exact pos_typed
      exact (Parses.typed hf hM hK hI hq _ t' (hΓ.cons .base) hc.value (hs.single hv)
        (fun x g hg => hd x g hg) hk.1 ht').mono hle
    · have hk : f.Kept σ m tys Γ ∧
          ∀ t, f.inferType m tys Γ = .ok t → g.Kept σ m tys ((x, .value t) :: Γ) := by
        cases f <;> first | exact absurd rfl hpos | simpa only [Format.Kept] using hk
      simp only [Format.inferType] at h
      obtain ⟨u, h1, h⟩ := Outcome.bind_eq_ok.mp h
      exact Parses.typed hf hM hK hI hq _ t (hΓ.cons (Format.infer_wf hf hI .refl f Γ u hΓ hc hk.1 h1)) hc.value
        (hs.single (Parses.typed hf hM hK hI hp Γ u hΓ hc hs hd hk.1 h1)) (fun x g hg => hd x g hg)
        (hk.2 u h1) h
  | _, _, _, _, _, _, .liftedNone, Γ, t, hΓ, hc, hs, hd, hk, h => by
    simp only [Format.inferType, Outcome.ok.injEq] at h; subst h
    simp only [Value.HasType]
    exact ⟨_, rfl⟩
  | _, _, _, _, _, _, .liftedSome (f := f) hp, Γ, t, hΓ, hc, hs, hd, hk, h => by
    simp only [Format.inferType] at h
    simp only [Format.Kept] at hk
    obtain ⟨u, h1, h⟩ := Outcome.bind_eq_ok.mp h
    simp only [Outcome.ok.injEq] at h; subst h
    simp only [Value.HasType]
    exact ⟨u, rfl, Parses.typed hf hM hK hI hp Γ u hΓ hc hs hd hk h1⟩
  | _, _, _, _, _, _, .letView (f := f) hp, Γ, t, hΓ, hc, hs, hd, hk, h => by
    simp only [Format.inferType] at h
    simp only [Format.Kept] at hk
    exact Parses.typed hf hM hK hI hp _ t hΓ.view hc.view hs.view (fun x g hg => hd x g hg) hk h
  | _, _, _, _, _, _, .captureBytes _ _ _, Γ, t, hΓ, hc, hs, hd, hk, h => by
    simp only [Format.inferType] at h
    obtain ⟨_, _, h⟩ := Outcome.bind_eq_ok.mp h
    obtain ⟨_, _, h⟩ := Outcome.bind_eq_ok.mp h
    rw [needNumeric_eq h]
    refine seq_typed fun v hv => ?_
    obtain ⟨b, _, rfl⟩ := List.mem_map.mp hv
    simp only [Value.u8, Value.HasType, ValueType.u]
  | _, _, _, _, _, _, .readArray _ _ _ _, Γ, t, hΓ, hc, hs, hd, hk, h => by
    simp only [Format.inferType] at h
    obtain ⟨_, _, h⟩ := Outcome.bind_eq_ok.mp h
    obtain ⟨_, _, h⟩ := Outcome.bind_eq_ok.mp h
    rw [needNumeric_eq h]
    refine seq_typed fun v hv => ?_
    obtain ⟨b, _, rfl⟩ := List.mem_map.mp hv
    simp only [arrayItem, Value.HasType, ValueType.u]
  | _, _, _, _, _, _, .reifyView _, Γ, t, hΓ, hc, hs, hd, hk, h => by
    simp only [Format.inferType] at h
    obtain ⟨_, _, h⟩ := Outcome.bind_eq_ok.mp h
    simp only [Outcome.ok.injEq] at h; subst h
    simp only [Value.HasType]
  | _, _, _, _, _, _, .phantom, Γ, t, hΓ, hc, hs, hd, hk, h => by
    simp only [Format.inferType] at h
    obtain ⟨u, h1, h⟩ := Outcome.bind_eq_ok.mp h
    simp only [Outcome.ok.injEq] at h; subst h
    simp only [Value.HasType]
    exact ⟨u, rfl⟩
  | _, _, _, _, _, _, .permit (f := f) (e := e) hp, Γ, t, hΓ, hc, hs, hd, hk, h => by
    simp only [Format.inferType] at h
    simp only [Format.Kept] at hk
    obtain ⟨t0, h1, h⟩ := Outcome.bind_eq_ok.mp h
    obtain ⟨t1, h2, h⟩ := Outcome.bind_eq_ok.mp h
    simp only [Value.HasType]
    exact (Parses.typed hf hM hK hI hp Γ t1 hΓ hc hs hd hk.2.1 h2).mono
      (ValueType.unify_upper t0 t1 t (Expr.infer_sound (δ := Unit) hf e Γ t0 hΓ hk.2.2 h1).1
        (Format.infer_wf hf hI .refl f Γ t1 hΓ hc hk.2.1 h2) (ValueType.unifyI_eq h)).2.2
  | _, _, _, _, _, _, .permit_fallback (f := f) (e := e) _ hde, Γ, t, hΓ, hc, hs, hd, hk, h => by
    simp only [Format.inferType] at h
    simp only [Format.Kept] at hk
    obtain ⟨t0, h1, h⟩ := Outcome.bind_eq_ok.mp h
    obtain ⟨t1, h2, h⟩ := Outcome.bind_eq_ok.mp h
    simp only [Value.HasType]
    exact ⟨hk.1, (denotes_typed hf hΓ hk.2.2 h1 hs hde).mono
      (ValueType.unify_upper t0 t1 t (Expr.infer_sound (δ := Unit) hf e Γ t0 hΓ hk.2.2 h1).1
        (Format.infer_wf hf hI .refl f Γ t1 hΓ hc hk.2.1 h2) (ValueType.unifyI_eq h)).2.1⟩

theorem _root_.Doodle.Grammar.ParsesFields.typed {σ : Slack} {m : Module} {tys : List ItemTypes}
    {rej : Format → Scope Format → ReadCtxt → Prop} (hf : σ.fallbacks ≠ .typed)
    (hM : m.Typed tys) (hK : m.Kept σ tys) (hI : ItemsWF tys) :
    ∀ {fs : List Format} {s : Scope Format} {c : ReadCtxt} {vs : List Value} {c' : ReadCtxt} {k : Nat},
    ParsesFields m rej fs s c vs c' k → ∀ (Γ : TypeScope), Γ.WF → Γ.Codes → s.Agrees σ Γ →
    s.Codes σ m rej → Format.KeptList σ m tys fs Γ →
    (∀ ts, Format.inferList m tys fs Γ = .ok ts → Value.HaveTypes σ vs ts) ∧
    (∀ t, (∀ f ∈ fs, ∃ u, f.inferType m tys Γ = .ok u ∧ Le u t) → ∀ v ∈ vs, v.HasType σ t)
  | _, _, _, _, _, _, .fnil, Γ, hΓ, hc, hs, hd, hk => by
    refine ⟨fun ts h => ?_, fun t _ v hv => nomatch hv⟩
    simp only [Format.inferList, Outcome.ok.injEq] at h; subst h
    simp only [Value.HaveTypes]
  | _, _, _, _, _, _, .fcons (f := f) (fs := fs) hp hq, Γ, hΓ, hc, hs, hd, hk => by
    simp only [Format.KeptList] at hk
    have ih := ParsesFields.typed hf hM hK hI hq Γ hΓ hc hs hd hk.2
    refine ⟨fun ts h => ?_, fun t hall v hv => ?_⟩
    · simp only [Format.inferList] at h
      obtain ⟨u, h1, h⟩ := Outcome.bind_eq_ok.mp h
      obtain ⟨us, h2, h⟩ := Outcome.bind_eq_ok.mp h
      simp only [Outcome.ok.injEq] at h; subst h
      simp only [Value.HaveTypes]
      exact ⟨Parses.typed hf hM hK hI hp Γ u hΓ hc hs hd hk.1 h1, ih.1 us h2⟩
    · obtain ⟨u, hu, hle⟩ := hall f (List.mem_cons_self ..)
      have hv1 := (Parses.typed hf hM hK hI hp Γ u hΓ hc hs hd hk.1 hu).mono hle
      rcases List.mem_cons.mp hv with e | hv
      · rw [e]; exact hv1
      · exact ih.2 t (fun f hf => hall f (List.mem_cons_of_mem _ hf)) v hv

theorem _root_.Doodle.Grammar.ParsesMany.typed {σ : Slack} {m : Module} {tys : List ItemTypes}
    {rej : Format → Scope Format → ReadCtxt → Prop} (hf : σ.fallbacks ≠ .typed)
    (hM : m.Typed tys) (hK : m.Kept σ tys) (hI : ItemsWF tys) :
    ∀ {f : Format} {s : Scope Format} {c : ReadCtxt} {vs : List Value} {c' : ReadCtxt} {k : Nat},
    ParsesMany m rej f s c vs c' k → ∀ (Γ : TypeScope) (t : ValueType), Γ.WF → Γ.Codes → s.Agrees σ Γ →
    s.Codes σ m rej → f.Kept σ m tys Γ → f.inferType m tys Γ = .ok t → ∀ v ∈ vs, v.HasType σ t
  | _, _, _, _, _, _, .mnil, Γ, t, hΓ, hc, hs, hd, hk, h => fun _ h => nomatch h
  | _, _, _, _, _, _, .mcons (f := f) hp hq, Γ, t, hΓ, hc, hs, hd, hk, h => by
    have h1 := Parses.typed hf hM hK hI hp Γ t hΓ hc hs hd hk h
    have h2 := ParsesMany.typed hf hM hK hI hq Γ t hΓ hc hs hd hk h
    intro v hv
    rcases List.mem_cons.mp hv with e | hv
    · rw [e]; exact h1
    · exact h2 v hv

theorem _root_.Doodle.Grammar.ParsesEach.typed {σ : Slack} {m : Module} {tys : List ItemTypes}
    {rej : Format → Scope Format → ReadCtxt → Prop} (hf : σ.fallbacks ≠ .typed)
    (hM : m.Typed tys) (hK : m.Kept σ tys) (hI : ItemsWF tys) :
    ∀ {l : String} {f : Format} {s : Scope Format} {is : List Value} {c : ReadCtxt} {vs : List Value}
    {c' : ReadCtxt} {k : Nat},
    ParsesEach m rej l f s is c vs c' k → ∀ (Γ : TypeScope) (ti t : ValueType), Γ.WF → ti.WF → Γ.Codes →
    s.Agrees σ Γ → s.Codes σ m rej → f.Kept σ m tys ((l, .value ti) :: Γ) →
    f.inferType m tys ((l, .value ti) :: Γ) = .ok t → (∀ i ∈ is, i.HasType σ ti) → ∀ v ∈ vs, v.HasType σ t
  | _, _, _, _, _, _, _, _, .enil, Γ, ti, t, hΓ, hti, hc, hs, hd, hk, h, hi => fun _ h => nomatch h
  | _, _, _, _, _, _, _, _, .econs (f := f) hp hq, Γ, ti, t, hΓ, hti, hc, hs, hd, hk, h, hi => by
    have h1 := Parses.typed hf hM hK hI hp _ t (hΓ.cons hti) hc.value
      (hs.single (hi _ (List.mem_cons_self ..))) (fun x g hg => hd x g hg) hk h
    have h2 := ParsesEach.typed hf hM hK hI hq Γ ti t hΓ hti hc hs hd hk h
      (fun i h => hi i (List.mem_cons_of_mem _ h))
    intro v hv
    rcases List.mem_cons.mp hv with e | hv
    · rw [e]; exact h1
    · exact h2 v hv
end

theorem Module.define_eq {m m' : Module} {tys tys' : List ItemTypes} {args : List (String × ValueType)}
    {views : List String} {f : Format} (h : m.define tys args views f = .ok (m', tys')) :
    ∃ t, f.inferType m tys (TypeScope.ofItem args views) = .ok t ∧
      m' = ⟨m.items ++ [⟨args.map (·.1), views, f⟩]⟩ ∧ tys' = tys ++ [⟨args.map (·.2), t⟩] := by
  unfold Module.define at h
  split at h
  · rename_i t ht
    simp only [Panicky.ok.injEq, Prod.mk.injEq] at h
    exact ⟨t, ht, h.1.symm, h.2.symm⟩
  · cases h

theorem Module.define_ext {m m' : Module} {tys tys' : List ItemTypes} {args : List (String × ValueType)}
    {views : List String} {f : Format} (h : m.define tys args views f = .ok (m', tys')) :
    Module.Ext m tys m' tys' := by
  obtain ⟨t, _, rfl, rfl⟩ := Module.define_eq h
  constructor
  · intro level it hi
    simp only
    rw [List.getElem?_append_left (List.getElem?_eq_some_iff.mp hi).1]
    exact hi
  · intro level ty hi
    rw [List.getElem?_append_left (List.getElem?_eq_some_iff.mp hi).1]
    exact hi

theorem Module.Defined.length {m : Module} {tys : List ItemTypes} (h : Module.Defined m tys) :
    m.items.length = tys.length := by
  induction h with
  | empty => rfl
  | define _ hd ih =>
    obtain ⟨t, _, rfl, rfl⟩ := Module.define_eq hd
    simp only [List.length_append, ih, List.length_cons, List.length_nil]

theorem zip_map_fst_snd {α β : Type} : ∀ (l : List (α × β)), (l.map (·.1)).zip (l.map (·.2)) = l
  | [] => rfl
  | a :: l => by simp only [List.map_cons, List.zip_cons_cons, zip_map_fst_snd l]

theorem Module.Defined.typed {m : Module} {tys : List ItemTypes} (h : Module.Defined m tys) : m.Typed tys := by
  induction h with
  | empty => intro level it ty hi; simp [Module.empty] at hi
  | define hd he ih =>
    have hx := Module.define_ext he
    have hl := hd.length
    obtain ⟨t, ht, rfl, rfl⟩ := Module.define_eq he
    intro level it ty hi hty
    rw [List.getElem?_append] at hi hty
    split at hi
    · rw [if_pos (by omega)] at hty
      obtain ⟨h1, h2⟩ := ih level it ty hi hty
      exact ⟨h1, Format.infer_ext hx _ _ _ h2⟩
    · rw [if_neg (by omega)] at hty
      rw [List.getElem?_singleton] at hi hty
      split at hi
      · rw [if_pos (by omega)] at hty
        cases hi
        cases hty
        refine ⟨by simp only [List.length_map], ?_⟩
        simp only
        rw [zip_map_fst_snd]
        exact Format.infer_ext hx _ _ _ ht
      · cases hi

/-- the types recorded for the items of a module that is part of a kept one are well-formed -/
theorem Module.Defined.itemsWF {σ : Slack} (hf : σ.fallbacks ≠ .typed) {m' : Module} {tys' : List ItemTypes}
    (hK : m'.Kept σ tys') {m : Module} {tys : List ItemTypes} (h : Module.Defined m tys) :
    Module.Ext m tys m' tys' → ItemsWF tys := by
  induction h with
  | empty => intro _ level ty hi; simp at hi
  | @define m tys args views f m1 tys1 hd he ih =>
    intro hx
    have hx0 := Module.define_ext he
    have ih := ih (hx0.trans hx)
    have hl := hd.length
    obtain ⟨t, ht, rfl, rfl⟩ := Module.define_eq he
    intro level ty hty
    have hty0 := hty
    rw [List.getElem?_append] at hty
    split at hty
    · exact ih level ty hty
    · rename_i hlt
      rw [List.getElem?_singleton] at hty
      split at hty
      · cases hty
        have hlev : level = tys.length := by omega
        obtain ⟨w, k⟩ := hK level _ _ (hx.items level _ (by
          rw [List.getElem?_append_right (by omega), hl, hlev, Nat.sub_self]
          rfl)) (hx.types level _ hty0)
        simp only at w k
        rw [zip_map_fst_snd] at k
        have hw := TypeScope.WF.ofItem (args := args.map (·.1)) (views := views) w
        have hcc := TypeScope.Codes.ofItem (args := (args.map (·.1)).zip (args.map (·.2))) (views := views)
        rw [zip_map_fst_snd] at hw hcc
        exact Format.infer_wf hf ih (hx0.trans hx) _ _ _ hw hcc k ht
      · cases hty

theorem Expr.PlainList.keptArgs {σ : Slack} (hf : σ.fallbacks ≠ .typed) {Γ : TypeScope} (hΓ : Γ.WF) :
    ∀ {tas : List ValueType} {es : List Expr}, Expr.PlainList σ es → ValueType.RigidList tas →
    Expr.checkArgs Γ tas es = .ok () → Expr.KeptArgs σ Γ tas es
  | [], _, _, _, _ => by simp only [Expr.KeptArgs]
  | _ :: _, [], _, _, _ => by simp only [Expr.KeptArgs]
  | ta :: tas, e :: es, hp, hr, h => by
    simp only [Expr.PlainList] at hp
    simp only [ValueType.RigidList] at hr
    simp only [Expr.checkArgs] at h
    obtain ⟨t, h1, h⟩ := Outcome.bind_eq_ok.mp h
    obtain ⟨u, h2, h⟩ := Outcome.bind_eq_ok.mp h
    simp only [Expr.KeptArgs]
    have k := Expr.Plain.kept hf e Γ t hΓ hp.1 h1
    have w := (Expr.infer_sound (δ := Unit) hf e Γ t hΓ k h1).1
    refine ⟨k, fun t' h' => ?_, Expr.PlainList.keptArgs hf hΓ hp.2 hr.2 h⟩
    rw [h1] at h'
    cases h'
    obtain ⟨_, a, b⟩ := ValueType.unify_upper ta t u hr.1.wf w (ValueType.unifyI_eq h2)
    rw [a.rigid hr.1] at b
    exact b

theorem Format.kept_map {σ : Slack} {tys : List ItemTypes} {f : Format} {e : Expr} {Γ : TypeScope} (hp : f ≠ .pos)
    (h : f.Kept σ m tys Γ ∧ ∀ t, f.inferType m tys Γ = .ok t → Expr.KeptFn σ Γ t e) :
    (Format.map f e).Kept σ m tys Γ := by
  cases f <;> first | exact absurd rfl hp | (simp only [Kept] at h ⊢; exact h)

theorem Format.kept_letFormat {σ : Slack} {tys : List ItemTypes} {f g : Format} {x : String} {Γ : TypeScope}
    (hp : f ≠ .pos)
    (h : f.Kept σ m tys Γ ∧ ∀ t, f.inferType m tys Γ = .ok t → g.Kept σ m tys ((x, .value t) :: Γ)) :
    (Format.letFormat f x g).Kept σ m tys Γ := by
  cases f <;> first | exact absurd rfl hp | (simp only [Kept] at h ⊢; exact h)

set_option maxHeartbeats 4000000 in
mutual
theorem Format.TypePlain.kept {σ : Slack} {m : Module} {tys tys' : List ItemTypes} (hf : σ.fallbacks ≠ .typed)
    (hI : ItemsWF tys) (hx : ∀ (level : Nat) (ty : ItemTypes), tys[level]? = some ty → tys'[level]? = some ty) :
    ∀ (f : Format) (Γ : TypeScope) (t : ValueType), Γ.WF → Γ.Codes → f.TypePlain σ tys' →
    f.inferType m tys Γ = .ok t → f.Kept σ m tys Γ
  | .itemVar level args views, Γ, t, hΓ, hc, hk, h => by
    simp only [inferType] at h
    simp only [TypePlain] at hk
    simp only [Kept]
    intro ty hty
    obtain ⟨it, h1, h⟩ := Outcome.bind_eq_ok.mp h
    obtain ⟨ty', h2, h⟩ := Outcome.bind_eq_ok.mp h
    have h2 := Outcome.ofPanicky_eq_ok.mp h2
    rw [hty] at h2
    simp only [Panicky.unwrap, Panicky.ok.injEq] at h2
    subst h2
    split at h
    · split at h
      · obtain ⟨_, h3, h⟩ := Outcome.bind_eq_ok.mp h
        exact Expr.PlainList.keptArgs hf hΓ hk.1 (hk.2 _ (hx _ _ hty)) h3
      · simp only [reduceCtorEq] at h
    · simp only [reduceCtorEq] at h
  | .fail, _, _, _, _, _, _ => by simp only [Kept]
  | .endOfInput, _, _, _, _, _, _ => by simp only [Kept]
  | .align _, _, _, _, _, _, _ => by simp only [Kept]
  | .byte _, _, _, _, _, _, _ => by simp only [Kept]
  | .peekNot _, _, _, _, _, _, _ => by simp only [Kept]
  | .apply _, _, _, _, _, _, _ => by simp only [Kept]
  | .skipRemainder, _, _, _, _, _, _ => by simp only [Kept]
  | .liftedNone, _, _, _, _, _, _ => by simp only [Kept]
  | .captureBytes _ _, _, _, _, _, _, _ => by simp only [Kept]
  | .readArray _ _ _, _, _, _, _, _, _ => by simp only [Kept]
  | .reifyView _, _, _, _, _, _, _ => by simp only [Kept]
  | .pos, _, _, _, _, hk, _ => by simp only [TypePlain] at hk
  | .accumUntil _ _ _ _ _, _, _, _, _, hk, _ => by simp only [TypePlain] at hk
  | .variant _ f, Γ, t, hΓ, hc, hk, h => by
    simp only [TypePlain] at hk
    simp only [Kept]
    simp only [inferType] at h
    obtain ⟨u, h, _⟩ := Outcome.bind_eq_ok.mp h
    exact Format.TypePlain.kept hf hI hx f Γ _ hΓ hc hk h
  | .repeat_ f, Γ, t, hΓ, hc, hk, h => by
    simp only [TypePlain] at hk
    simp only [Kept]
    simp only [inferType] at h
    obtain ⟨u, h, _⟩ := Outcome.bind_eq_ok.mp h
    exact Format.TypePlain.kept hf hI hx f Γ _ hΓ hc hk h
  | .repeat1 f, Γ, t, hΓ, hc, hk, h => by
    simp only [TypePlain] at hk
    simp only [Kept]
    simp only [inferType] at h
    obtain ⟨u, h, _⟩ := Outcome.bind_eq_ok.mp h
    exact Format.TypePlain.kept hf hI hx f Γ _ hΓ hc hk h
  | .where_ f _ _, Γ, t, hΓ, hc, hk, h => by
    simp only [TypePlain] at hk
    simp only [Kept]
    simp only [inferType] at h
    obtain ⟨u, h, _⟩ := Outcome.bind_eq_ok.mp h
    exact Format.TypePlain.kept hf hI hx f Γ _ hΓ hc hk h
  | .liftedSome f, Γ, t, hΓ, hc, hk, h => by
    simp only [TypePlain] at hk
    simp only [Kept]
    simp only [inferType] at h
    obtain ⟨u, h, _⟩ := Outcome.bind_eq_ok.mp h
    exact Format.TypePlain.kept hf hI hx f Γ _ hΓ hc hk h
  | .phantom f, Γ, t, hΓ, hc, hk, h => by
    simp only [TypePlain] at hk
    simp only [Kept]
    simp only [inferType] at h
    obtain ⟨u, h, _⟩ := Outcome.bind_eq_ok.mp h
    exact Format.TypePlain.kept hf hI hx f Γ _ hΓ hc hk h
  | .repeatCount _ f, Γ, t, hΓ, hc, hk, h => by
    simp only [TypePlain] at hk
    simp only [Kept]
    simp only [inferType] at h
    obtain ⟨_, _, h⟩ := Outcome.bind_eq_ok.mp h
    obtain ⟨_, _, h⟩ := Outcome.bind_eq_ok.mp h
    obtain ⟨u, h, _⟩ := Outcome.bind_eq_ok.mp h
    exact Format.TypePlain.kept hf hI hx f Γ _ hΓ hc hk h
  | .maybe _ f, Γ, t, hΓ, hc, hk, h => by
    simp only [TypePlain] at hk
    simp only [Kept]
    simp only [inferType] at h
    obtain ⟨_, _, h⟩ := Outcome.bind_eq_ok.mp h
    obtain ⟨_, _, h⟩ := Outcome.bind_eq_ok.mp h
    obtain ⟨u, h, _⟩ := Outcome.bind_eq_ok.mp h
    exact Format.TypePlain.kept hf hI hx f Γ _ hΓ hc hk h
  | .repeatUntilLast e f, Γ, t, hΓ, hc, hk, h => by
    simp only [TypePlain] at hk
    simp only [Kept]
    cases e <;> simp only [inferType, reduceCtorEq] at h
    obtain ⟨u, h, _⟩ := Outcome.bind_eq_ok.mp h
    exact Format.TypePlain.kept hf hI hx f Γ _ hΓ hc hk h
  | .repeatUntilSeq e f, Γ, t, hΓ, hc, hk, h => by
    simp only [TypePlain] at hk
    simp only [Kept]
    cases e <;> simp only [inferType, reduceCtorEq] at h
    obtain ⟨u, h, _⟩ := Outcome.bind_eq_ok.mp h
    exact Format.TypePlain.kept hf hI hx f Γ _ hΓ hc hk h
  | .peek f, Γ, t, hΓ, hc, hk, h => by
    simp only [TypePlain] at hk
    simp only [Kept]
    simp only [inferType] at h
    exact Format.TypePlain.kept hf hI hx f Γ _ hΓ hc hk h
  | .slice _ f, Γ, t, hΓ, hc, hk, h => by
    simp only [TypePlain] at hk
    simp only [Kept]
    simp only [inferType] at h
    exact Format.TypePlain.kept hf hI hx f Γ _ hΓ hc hk h
  | .bits f, Γ, t, hΓ, hc, hk, h => by
    simp only [TypePlain] at hk
    simp only [Kept]
    simp only [inferType] at h
    exact Format.TypePlain.kept hf hI hx f Γ _ hΓ hc hk h
  | .withRelativeOffset _ _ f, Γ, t, hΓ, hc, hk, h => by
    simp only [TypePlain] at hk
    simp only [Kept]
    simp only [inferType] at h
    exact Format.TypePlain.kept hf hI hx f Γ _ hΓ hc hk h
  | .hint f, Γ, t, hΓ, hc, hk, h => by
    simp only [TypePlain] at hk
    simp only [Kept]
    simp only [inferType] at h
    exact Format.TypePlain.kept hf hI hx f Γ _ hΓ hc hk h
  | .enforce f, Γ, t, hΓ, hc, hk, h => by
    simp only [TypePlain] at hk
    simp only [Kept]
    simp only [inferType] at h
    exact Format.TypePlain.kept hf hI hx f Γ _ hΓ hc hk h
  | .decodeBytes _ f, Γ, t, hΓ, hc, hk, h => by
    simp only [TypePlain] at hk
    simp only [Kept]
    simp only [inferType] at h
    obtain ⟨_, _, h⟩ := Outcome.bind_eq_ok.mp h
    obtain ⟨_, _, h⟩ := Outcome.bind_eq_ok.mp h
    exact Format.TypePlain.kept hf hI hx f Γ _ hΓ hc hk h
  | .parseFromView _ f, Γ, t, hΓ, hc, hk, h => by
    simp only [TypePlain] at hk
    simp only [Kept]
    simp only [inferType] at h
    obtain ⟨_, _, h⟩ := Outcome.bind_eq_ok.mp h
    exact Format.TypePlain.kept hf hI hx f Γ _ hΓ hc hk h
  | .monadSeq _ f, Γ, t, hΓ, hc, hk, h => by
    simp only [TypePlain] at hk
    simp only [Kept]
    simp only [inferType] at h
    obtain ⟨_, _, h⟩ := Outcome.bind_eq_ok.mp h
    exact Format.TypePlain.kept hf hI hx f Γ _ hΓ hc hk h
  | .dynamic x _ _ f, Γ, t, hΓ, hc, hk, h => by
    simp only [TypePlain] at hk
    simp only [Kept]
    simp only [inferType] at h
    obtain ⟨_, _, h⟩ := Outcome.bind_eq_ok.mp h
    obtain ⟨_, _, h⟩ := Outcome.bind_eq_ok.mp h
    exact Format.TypePlain.kept hf hI hx f _ _ hΓ.format hc.format hk h
  | .letView x f, Γ, t, hΓ, hc, hk, h => by
    simp only [TypePlain] at hk
    simp only [Kept]
    simp only [inferType] at h
    exact Format.TypePlain.kept hf hI hx f _ _ hΓ.view hc.view hk h
  | .repeatBetween _ _ f, Γ, t, hΓ, hc, hk, h => by
    simp only [TypePlain] at hk
    simp only [Kept]
    simp only [inferType] at h
    obtain ⟨_, _, h⟩ := Outcome.bind_eq_ok.mp h
    obtain ⟨_, _, h⟩ := Outcome.bind_eq_ok.mp h
    obtain ⟨_, _, h⟩ := Outcome.bind_eq_ok.mp h
    obtain ⟨_, _, h⟩ := Outcome.bind_eq_ok.mp h
    split at h
    · obtain ⟨u, h, _⟩ := Outcome.bind_eq_ok.mp h
      exact Format.TypePlain.kept hf hI hx f Γ _ hΓ hc hk h
    · simp only [reduceCtorEq] at h
  | .union fs, Γ, t, hΓ, hc, hk, h => by
    simp only [TypePlain] at hk
    simp only [Kept]
    simp only [inferType] at h
    exact Format.TypePlainList.keptJoin hf hI hx fs Γ _ _ hΓ hc hk h
  | .unionNondet fs, Γ, t, hΓ, hc, hk, h => by
    simp only [TypePlain] at hk
    simp only [Kept]
    simp only [inferType] at h
    exact Format.TypePlainList.keptJoin hf hI hx fs Γ _ _ hΓ hc hk h
  | .sequence fs, Γ, t, hΓ, hc, hk, h => by
    simp only [TypePlain] at hk
    simp only [Kept]
    simp only [inferType] at h
    obtain ⟨u, h, _⟩ := Outcome.bind_eq_ok.mp h
    exact Format.TypePlainList.keptJoin hf hI hx fs Γ _ _ hΓ hc hk h
  | .tuple fs, Γ, t, hΓ, hc, hk, h => by
    simp only [TypePlain] at hk
    simp only [Kept]
    simp only [inferType] at h
    obtain ⟨u, h, _⟩ := Outcome.bind_eq_ok.mp h
    exact Format.TypePlainList.kept hf hI hx fs Γ _ hΓ hc hk h
  | .forEach e l f, Γ, t, hΓ, hc, hk, h => by
    simp only [TypePlain] at hk
    simp only [Kept]
    simp only [inferType] at h
    obtain ⟨te, h1, h⟩ := Outcome.bind_eq_ok.mp h
    obtain ⟨u, h2, h⟩ := Outcome.bind_eq_ok.mp h
    rw [ValueType.elemI_eq h2] at h1
    obtain ⟨ti, h3, h⟩ := Outcome.bind_eq_ok.mp h
    have k := Expr.Plain.kept hf e Γ _ hΓ hk.1 h1
    have w1 := (Expr.infer_sound (δ := Unit) hf e Γ _ hΓ k h1).1
    refine ⟨k, fun t' h' => ?_⟩
    rw [h1] at h'
    simp only [Outcome.ok.injEq, ValueType.seq.injEq] at h'
    rw [← h']
    exact Format.TypePlain.kept hf hI hx f _ _ (hΓ.cons w1.elem) hc.value hk.2 h3
  | .map f e, Γ, t, hΓ, hc, hk, h => by
    simp only [TypePlain] at hk
    simp only [inferType] at h
    obtain ⟨u, h1, h⟩ := Outcome.bind_eq_ok.mp h
    have k := Format.TypePlain.kept hf hI hx f Γ u hΓ hc hk.1 h1
    have w := Format.infer_wf hf hI .refl f Γ u hΓ hc k h1
    have goal : f.Kept σ m tys Γ ∧ ∀ t, f.inferType m tys Γ = .ok t → Expr.KeptFn σ Γ t e := by
      refine ⟨k, fun t' h' => ?_⟩
      rw [h1] at h'
      simp only [Outcome.ok.injEq] at h'
      rw [← h']
      cases e <;> simp only [reduceCtorEq] at h
      have hk := hk.2
      simp only [Expr.Plain] at hk
      exact Expr.Plain.kept hf _ _ _ (hΓ.cons w) hk h
    refine Format.kept_map (fun e => ?_) goal
    rw [e] at hk
    simp only [TypePlain, false_and] at hk
  | .compute e, Γ, t, hΓ, hc, hk, h => by
    simp only [TypePlain] at hk
    simp only [inferType] at h
    simp only [Kept]
    exact Expr.Plain.kept hf e Γ t hΓ hk h
  | .let_ x e f, Γ, t, hΓ, hc, hk, h => by
    simp only [TypePlain] at hk
    simp only [inferType] at h
    simp only [Kept]
    obtain ⟨u, h1, h⟩ := Outcome.bind_eq_ok.mp h
    have k := Expr.Plain.kept hf e Γ _ hΓ hk.1 h1
    have w1 := (Expr.infer_sound (δ := Unit) hf e Γ _ hΓ k h1).1
    refine ⟨k, fun t' h' => ?_⟩
    rw [h1] at h'
    simp only [Outcome.ok.injEq] at h'
    rw [← h']
    exact Format.TypePlain.kept hf hI hx f _ _ (hΓ.cons w1) hc.value hk.2 h
  | .match_ head bs, Γ, t, hΓ, hc, hk, h => by
    simp only [TypePlain] at hk
    simp only [inferType] at h
    simp only [Kept]
    split at h
    · simp only [reduceCtorEq] at h
    · obtain ⟨th, h1, h⟩ := Outcome.bind_eq_ok.mp h
      have k := Expr.Plain.kept hf head Γ _ hΓ hk.1 h1
      have w1 := (Expr.infer_sound (δ := Unit) hf head Γ _ hΓ k h1).1
      refine ⟨k, fun t' h' => ?_⟩
      rw [h1] at h'
      simp only [Outcome.ok.injEq] at h'
      rw [← h']
      exact Format.TypePlainBranches.kept hf hI hx bs Γ th _ _ hΓ w1 hc hk.2 h
  | .letFormat f x g, Γ, t, hΓ, hc, hk, h => by
    simp only [TypePlain] at hk
    simp only [inferType] at h
    obtain ⟨u, h1, h⟩ := Outcome.bind_eq_ok.mp h
    have k := Format.TypePlain.kept hf hI hx f Γ u hΓ hc hk.1 h1
    have w := Format.infer_wf hf hI .refl f Γ u hΓ hc k h1
    have kg := Format.TypePlain.kept hf hI hx g _ t (hΓ.cons w) hc.value hk.2 h
    have goal : f.Kept σ m tys Γ ∧
        ∀ t, f.inferType m tys Γ = .ok t → g.Kept σ m tys ((x, .value t) :: Γ) := by
      refine ⟨k, fun t' h' => ?_⟩
      rw [h1] at h'
      simp only [Outcome.ok.injEq] at h'
      rw [← h']
      exact kg
    refine Format.kept_letFormat (fun e => ?_) goal
    rw [e] at hk
    simp only [TypePlain, false_and] at hk
  | .permit f e, Γ, t, hΓ, hc, hk, h => by
    simp only [TypePlain] at hk
    simp only [inferType] at h
    simp only [Kept]
    obtain ⟨t0, h1, h⟩ := Outcome.bind_eq_ok.mp h
    obtain ⟨t1, h2, h⟩ := Outcome.bind_eq_ok.mp h
    exact ⟨hk.1, Format.TypePlain.kept hf hI hx f Γ t1 hΓ hc hk.2.1 h2, Expr.Plain.kept hf e Γ t0 hΓ hk.2.2 h1⟩

theorem Format.TypePlainList.kept {σ : Slack} {m : Module} {tys tys' : List ItemTypes} (hf : σ.fallbacks ≠ .typed)
    (hI : ItemsWF tys) (hx : ∀ (level : Nat) (ty : ItemTypes), tys[level]? = some ty → tys'[level]? = some ty) :
    ∀ (fs : List Format) (Γ : TypeScope) (ts : List ValueType), Γ.WF → Γ.Codes → Format.TypePlainList σ tys' fs →
    Format.inferList m tys fs Γ = .ok ts → Format.KeptList σ m tys fs Γ
  | [], _, _, _, _, _, _ => by simp only [Format.KeptList]
  | f :: fs, Γ, ts, hΓ, hc, hk, h => by
    simp only [Format.TypePlainList] at hk
    simp only [Format.inferList] at h
    simp only [Format.KeptList]
    obtain ⟨t0, h1, h⟩ := Outcome.bind_eq_ok.mp h
    obtain ⟨t1, h2, h⟩ := Outcome.bind_eq_ok.mp h
    exact ⟨Format.TypePlain.kept hf hI hx f Γ t0 hΓ hc hk.1 h1, Format.TypePlainList.kept hf hI hx fs Γ t1 hΓ hc hk.2 h2⟩

theorem Format.TypePlainList.keptJoin {σ : Slack} {m : Module} {tys tys' : List ItemTypes} (hf : σ.fallbacks ≠ .typed)
    (hI : ItemsWF tys) (hx : ∀ (level : Nat) (ty : ItemTypes), tys[level]? = some ty → tys'[level]? = some ty) :
    ∀ (fs : List Format) (Γ : TypeScope) (acc t : ValueType), Γ.WF → Γ.Codes → Format.TypePlainList σ tys' fs →
    Format.inferJoin m tys fs Γ acc = .ok t → Format.KeptList σ m tys fs Γ
  | [], _, _, _, _, _, _, _ => by simp only [Format.KeptList]
  | f :: fs, Γ, acc, t, hΓ, hc, hk, h => by
    simp only [Format.TypePlainList] at hk
    simp only [Format.inferJoin] at h
    simp only [Format.KeptList]
    obtain ⟨t0, h1, h⟩ := Outcome.bind_eq_ok.mp h
    obtain ⟨t1, h2, h⟩ := Outcome.bind_eq_ok.mp h
    exact ⟨Format.TypePlain.kept hf hI hx f Γ t0 hΓ hc hk.1 h1,
      Format.TypePlainList.keptJoin hf hI hx fs Γ t1 t hΓ hc hk.2 h⟩

theorem Format.TypePlainBranches.kept {σ : Slack} {m : Module} {tys tys' : List ItemTypes} (hf : σ.fallbacks ≠ .typed)
    (hI : ItemsWF tys) (hx : ∀ (level : Nat) (ty : ItemTypes), tys[level]? = some ty → tys'[level]? = some ty) :
    ∀ (bs : List (Pattern × Format)) (Γ : TypeScope) (th acc t : ValueType), Γ.WF → th.WF → Γ.Codes →
    Format.TypePlainBranches σ tys' bs →
    Format.inferBranches m tys bs Γ th acc = .ok t → Format.KeptBranches σ m tys bs Γ th
  | [], _, _, _, _, _, _, _, _, _ => by simp only [Format.KeptBranches]
  | (p, f) :: bs, Γ, th, acc, t, hΓ, hth, hc, hk, h => by
    simp only [Format.TypePlainBranches] at hk
    simp only [Format.inferBranches] at h
    simp only [Format.KeptBranches]
    obtain ⟨Γ', h0, h⟩ := Outcome.bind_eq_ok.mp h
    obtain ⟨t0, h1, h⟩ := Outcome.bind_eq_ok.mp h
    obtain ⟨t1, h2, h⟩ := Outcome.bind_eq_ok.mp h
    refine ⟨fun Γ'' h' => ?_, Format.TypePlainBranches.kept hf hI hx bs Γ th t1 t hΓ hth hc hk.2 h⟩
    rw [h0] at h'
    simp only [Outcome.ok.injEq] at h'
    rw [← h']
    exact Format.TypePlain.kept hf hI hx f Γ' t0 (Pattern.build_wf p th Γ Γ' h0 hth hΓ)
      (Pattern.build_codes p th Γ Γ' h0 hth hc) hk.1 h1
end

theorem Module.Defined.plainWF {σ : Slack} (hf : σ.fallbacks ≠ .typed) {m' : Module} {tys' : List ItemTypes}
    (hK : m'.TypePlain σ tys') {m : Module} {tys : List ItemTypes} (h : Module.Defined m tys) :
    Module.Ext m tys m' tys' → ItemsWF tys := by
  induction h with
  | empty => intro _ level ty hi; simp at hi
  | @define m tys args views f m1 tys1 hd he ih =>
    intro hx
    have hx0 := Module.define_ext he
    have ih := ih (hx0.trans hx)
    have hl := hd.length
    obtain ⟨t, ht, rfl, rfl⟩ := Module.define_eq he
    intro level ty hty
    have hty0 := hty
    rw [List.getElem?_append] at hty
    split at hty
    · exact ih level ty hty
    · rename_i hlt
      rw [List.getElem?_singleton] at hty
      split at hty
      · cases hty
        have hlev : level = tys.length := by omega
        have k := hK.1 level _ (hx.items level _ (by
          rw [List.getElem?_append_right (by omega), hl, hlev, Nat.sub_self]
          rfl))
        have w := (hK.2 level _ (hx.types level _ hty0)).wf
        simp only at w k
        have hw := TypeScope.WF.ofItem (args := args.map (·.1)) (views := views) w
        have hcc := TypeScope.Codes.ofItem (args := (args.map (·.1)).zip (args.map (·.2))) (views := views)
        rw [zip_map_fst_snd] at hw hcc
        exact Format.infer_wf hf ih .refl _ _ _ hw hcc
          (Format.TypePlain.kept hf ih (hx0.trans hx).types f _ _ hw hcc k ht) ht
      · cases hty

theorem Module.TypePlain.kept {σ : Slack} (hf : σ.fallbacks ≠ .typed) {m : Module} {tys : List ItemTypes}
    (hd : Module.Defined m tys) (h : m.TypePlain σ tys) : m.Kept σ tys := by
  intro level it ty hi hty
  have hI := hd.plainWF hf h .refl
  have w := (h.2 level ty hty).wf
  exact ⟨w, Format.TypePlain.kept hf hI (fun _ _ h => h) _ _ _ (TypeScope.WF.ofItem w) TypeScope.Codes.ofItem
    (h.1 level it hi) (hd.typed level it ty hi hty).2⟩

end
end Doodle
