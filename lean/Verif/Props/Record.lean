import Verif.Lemmas.Record
import Verif.Spec.Grammar

/-! Properties C18 (records) and C19 (flattening records and rebuilding them). -/

namespace Doodle
namespace Record

open Grammar Compiler

section
variable [DecidableEq Next]

/-- A record decodes exactly when its fields decode one after the other, each in the scope of the named
fields before it, and then its value has exactly the kept fields, in order, with the values they decoded
to.  The condition is that no field has the name of a kept field before it. -/
theorem C18_fields_partial (m : Module) (o : BuildOpts) (fields : List Field) (next : Next) (st st' : CompSt)
    (d : Decoder) (hn : NoRebind (fields.map (·.1)))
    (hd : compileFormat m o (recordExt fields) next st = .ok (d, st')) :
    ∃ parts, CompiledFrom m o fields parts ∧ ∀ env s c w,
      Yields env d s c w ↔ ∃ vs c' errs, FieldsRun env parts s c vs c' errs ∧
        w = ⟨(recordValue (kept (fields.map (·.1)) vs), c'), errs⟩ := by
  obtain ⟨parts, hp, hrun⟩ := chain_run fields [] next st st' d hd
  refine ⟨parts, hp, fun env s c w => ?_⟩
  rw [(hrun env s c).1 w]
  have key : ∀ vs c' errs, FieldsRun env parts s c vs c' errs →
      (kept (fields.map (·.1)) vs).map (·.1) = keptNames (fields.map (·.1)) ∧
      ∀ p ∈ kept (fields.map (·.1)) vs, (bindAll (fields.map (·.1)) vs s).getValue p.1 = some p.2 := by
    intro vs c' errs hr
    have hl : (fields.map (·.1)).length = vs.length := by rw [hp.labels, List.length_map, hr.length]
    refine ⟨kept_names hl, fun p hk => ?_⟩
    rw [getValue_bindAll, kept_last hn hl p hk]; rfl
  constructor
  · rintro ⟨vs, c', errs, fs, hr, rfl, hx, hy⟩
    refine ⟨vs, c', errs, hr, ?_⟩
    obtain ⟨h1, h2⟩ := key vs c' errs hr
    rw [assoc_unique (g := fun x => (bindAll (fields.map (·.1)) vs s).getValue x) (hx.trans h1.symm) hy h2]
  · rintro ⟨vs, c', errs, hr, rfl⟩
    obtain ⟨h1, h2⟩ := key vs c' errs hr
    exact ⟨vs, c', errs, _, hr, rfl, h1, h2⟩

/-- Without that condition, a kept name stands for the last field of that name. -/
theorem C18_last_binding (m : Module) (o : BuildOpts) (fields : List Field) (next : Next) (st st' : CompSt)
    (d : Decoder) (hd : compileFormat m o (recordExt fields) next st = .ok (d, st')) :
    ∃ parts, CompiledFrom m o fields parts ∧ ∀ env s c w,
      Yields env d s c w ↔ ∃ vs c' errs fs, FieldsRun env parts s c vs c' errs ∧
        w = ⟨(recordValue fs, c'), errs⟩ ∧ fs.map (·.1) = keptNames (fields.map (·.1)) ∧
        ∀ p ∈ fs, lastNamed p.1 (fields.map (·.1)) vs = some p.2 := by
  obtain ⟨parts, hp, hrun⟩ := chain_run fields [] next st st' d hd
  refine ⟨parts, hp, fun env s c w => ?_⟩
  rw [(hrun env s c).1 w]
  have key : ∀ vs c' errs (fs : List (String × Value)), FieldsRun env parts s c vs c' errs →
      fs.map (·.1) = keptNames (fields.map (·.1)) → ∀ p ∈ fs,
      (bindAll (fields.map (·.1)) vs s).getValue p.1 = lastNamed p.1 (fields.map (·.1)) vs := by
    intro vs c' errs fs hr hx p hk
    have hl : (fields.map (·.1)).length = vs.length := by rw [hp.labels, List.length_map, hr.length]
    obtain ⟨u, hu⟩ := lastNamed_some (x := p.1) (hx ▸ List.mem_map.2 ⟨p, hk, rfl⟩) hl
    rw [getValue_bindAll, hu]; rfl
  constructor
  · rintro ⟨vs, c', errs, fs, hr, rfl, hx, hy⟩
    refine ⟨vs, c', errs, fs, hr, rfl, hx, fun p hk => ?_⟩
    rw [← key vs c' errs fs hr hx p hk]; exact hy p hk
  · rintro ⟨vs, c', errs, fs, hr, rfl, hx, hy⟩
    refine ⟨vs, c', errs, fs, hr, rfl, hx, fun p hk => ?_⟩
    rw [key vs c' errs fs hr hx p hk]; exact hy p hk

/-- A record fails exactly when one of its fields does, after those before it have decoded, with the error
of that field. -/
theorem C18_failure (m : Module) (o : BuildOpts) (fields : List Field) (next : Next) (st st' : CompSt)
    (d : Decoder) (hd : compileFormat m o (recordExt fields) next st = .ok (d, st')) :
    ∃ parts, CompiledFrom m o fields parts ∧ ∀ env s c e,
      Fails env d s c e ↔ FieldsFail env parts s c e := by
  obtain ⟨parts, hp, hrun⟩ := chain_run fields [] next st st' d hd
  exact ⟨parts, hp, fun env s c e => (hrun env s c).2 e⟩

/-- A chain of steps decodes exactly when its steps decode one after the other, each in the scope of the named
steps before it, and then the last format in the scope of all of them; the result is that of the last format.
It fails exactly when a step or the last format fails after what comes before it has decoded. -/
theorem C18_chaining (m : Module) (o : BuildOpts) (steps : List (Option String × Format)) (ret : Format)
    (next : Next) (st st' : CompSt) (d : Decoder)
    (hd : compileFormat m o (chaining steps ret) next st = .ok (d, st')) :
    ∃ parts dret, CompiledFrom m o (steps.map step) parts ∧
      (∃ (next : Next) (st st' : CompSt), compileFormat m o ret next st = .ok (dret, st')) ∧ ∀ env s c,
      (∀ w, Yields env d s c w ↔ ∃ vs c' errs w', FieldsRun env parts s c vs c' errs ∧
        Yields env dret (bindAll (parts.map (·.1)) vs s) c' w' ∧ w = ⟨w'.value, w'.errs ++ errs⟩) ∧
      (∀ e, Fails env d s c e ↔ FieldsFail env parts s c e ∨ ∃ vs c' errs, FieldsRun env parts s c vs c' errs ∧
        Fails env dret (bindAll (parts.map (·.1)) vs s) c' e) :=
  chaining_run ret steps next st st' d hd

omit [DecidableEq Next] in
/-- a chain of an unnamed step, a named step, and a result that uses it -/
example : ∃ (_ : DecidableEq Next) (d : Decoder) (st' : CompSt),
    compileFormat .empty ⟨fun _ l => l, 20⟩ (chaining [(none, .byte (ByteSet.fromIter [9])), (some "n", .byte .full)]
      (.repeatCount (.var "n") (.byte .full))) .empty Compiler.new = .ok (d, st') ∧
    Decoder.parse ⟨[], fun _ => .panic⟩ 20 d .empty ⟨[9, 2, 7, 5, 6], 0⟩ =
      .ok ⟨(.seq (.strict [Value.u8 7, Value.u8 5]), ⟨[9, 2, 7, 5, 6], 4⟩), []⟩ :=
  ⟨fun _ _ => Classical.propDecidable _, _, _, rfl, rfl⟩

omit [DecidableEq Next] in
/-- Every field decodes in a scope where each name stands for the last earlier field of that name, and for
what it stood for before the record if there is none. -/
theorem C18_scope (env : Env) (l : Lab) (d : Decoder) (ps qs : List (Lab × Decoder)) (s : Scope Decoder)
    (c c' : ReadCtxt) (vs : List Value) (errs : List DecodeErr)
    (h : FieldsRun env (ps ++ (l, d) :: qs) s c vs c' errs) :
    ∃ t cd w, Yields env d t cd w ∧ vs[ps.length]? = some w.value.1 ∧
      ∀ x, t.getValue x = (lastNamed x (ps.map (·.1)) vs).or (s.getValue x) := by
  induction ps generalizing s c vs errs with
  | nil =>
    cases h with
    | cons hy hr => exact ⟨s, c, _, hy, rfl, fun x => by simp [lastNamed]⟩
  | cons p ps ih =>
    cases h with
    | cons hy hr =>
      obtain ⟨t, cd, w, h1, h2, h3⟩ := ih _ _ _ _ hr
      refine ⟨t, cd, w, h1, by simpa using h2, fun x => ?_⟩
      rw [h3, List.map_cons, lastNamed, getValue_bindField, Option.or_assoc]

/-- a record with an unnamed field, a temporary field and two kept ones; the length of the last is the
temporary field -/
private def demo : List Field :=
  [(none, .byte (ByteSet.fromIter [9])), (some ("len", false), .byte .full), (some ("a", true), .byte .full),
    (some ("b", true), .repeatCount (.var "len") (.byte .full))]

private def demoOpts : BuildOpts := ⟨fun _ l => l, 20⟩
private def demoEnv : Env := ⟨[], fun _ => .panic⟩

omit [DecidableEq Next] in
example : ∃ (_ : DecidableEq Next) (d : Decoder) (st' : CompSt), NoRebind (demo.map (·.1)) ∧
    compileFormat .empty demoOpts (recordExt demo) .empty Compiler.new = .ok (d, st') ∧
    Decoder.parse demoEnv 20 d .empty ⟨[9, 2, 7, 5, 6, 1], 0⟩ =
      .ok ⟨(.record [("a", Value.u8 7), ("b", .seq (.strict [Value.u8 5, Value.u8 6]))], ⟨[9, 2, 7, 5, 6, 1], 5⟩), []⟩ ∧
    kept (demo.map (·.1)) [Value.u8 9, Value.u8 2, Value.u8 7, .seq (.strict [Value.u8 5, Value.u8 6])] =
      [("a", Value.u8 7), ("b", .seq (.strict [Value.u8 5, Value.u8 6]))] := by
  refine ⟨fun _ _ => Classical.propDecidable _, _, _, ?_, rfl, rfl, rfl⟩
  simp [demo, NoRebind]

omit [DecidableEq Next] in
/-- The condition is needed: with two kept fields of one name, the record has the value of the second
twice. -/
theorem C18_rebind_refuted : ∃ (_ : DecidableEq Next) (d : Decoder) (st' : CompSt),
    compileFormat .empty demoOpts (record [("a", .byte .full), ("a", .byte .full)]) .empty Compiler.new = .ok (d, st') ∧
    Decoder.parse demoEnv 20 d .empty ⟨[1, 2], 0⟩ =
      .ok ⟨(.record [("a", Value.u8 2), ("a", Value.u8 2)], ⟨[1, 2], 2⟩), []⟩ :=
  ⟨fun _ _ => Classical.propDecidable _, _, _, rfl, rfl⟩

omit [DecidableEq Next] in
/-- The labels of `record_auto`: a label of two underscores makes an unnamed field, one underscore a
temporary one, any other label that does not start with a `#` a kept field. -/
theorem C18_auto (l : String) :
    (autoLabel l = none ↔ ∃ r, l.toList = '_' :: '_' :: r) ∧
    (∀ x, autoLabel l = some (x, false) ↔ x = l ∧ l.toList.head? = some '_' ∧ ¬ ∃ r, l.toList = '_' :: '_' :: r) ∧
    (∀ x, l.toList.head? ≠ some '#' → (autoLabel l = some (x, true) ↔ x = l ∧ l.toList.head? ≠ some '_')) ∧
    (∀ r, l.toList = '#' :: r → r.head? ≠ some '#' → autoLabel l = some (String.ofList r, true)) := by
  unfold autoLabel
  refine ⟨?_, ?_, ?_, ?_⟩
  · split
    · rename_i h; simp [h]
    · rename_i h; simp [h]
    · rename_i h _; rename_i h1 h2 h3; simp_all
    · rename_i h1 h2 h3; simp_all
  · intro x
    split
    · rename_i h; simp [h]
    · rename_i h; simp [h]
    · rename_i t hne heq
      simp only [Option.some.injEq, Prod.mk.injEq, and_true]
      refine ⟨fun h => ⟨h.symm, by rw [heq]; rfl, ?_⟩, fun h => h.1.symm⟩
      rintro ⟨r, hr⟩
      rw [heq] at hr
      injection hr with _ hr
      exact hne r hr
    · rename_i h1 h2 h3
      simp only [Option.some.injEq, Prod.mk.injEq, Bool.true_eq_false, and_false, false_iff, not_and]
      intro _ hh
      cases hl : l.toList with
      | nil => rw [hl] at hh; cases hh
      | cons a as => rw [hl] at hh; cases hh; exact absurd hl (h3 as)
  · intro x hx
    split
    · rename_i h; simp [h] at hx
    · rename_i h; simp [h]
    · rename_i h _; simp_all
    · rename_i h1 h2 h3
      simp only [Option.some.injEq, Prod.mk.injEq, and_true]
      constructor
      · rintro rfl
        refine ⟨rfl, ?_⟩
        intro hh
        cases hl : l.toList with
        | nil => rw [hl] at hh; cases hh
        | cons a as => rw [hl] at hh; cases hh; exact h3 as hl
      · exact fun h => h.1.symm
  · intro r hr hh
    simp only [hr]
    cases r with
    | nil => rfl
    | cons a as =>
      have : (a == '#') = false := by
        simp only [List.head?_cons, ne_eq, Option.some.injEq] at hh
        simpa using hh
      simp [this]

omit [DecidableEq Next] in
/-- "The verbatim identifier after the `#`" is not kept when it starts with a `#` itself. -/
theorem C18_auto_refuted : autoLabel "##x" = some ("x", true) := by decide +kernel

omit [DecidableEq Next] in
/-- Flattening a record-shaped format gives its fields with their labels, and rebuilding gives a record
format of the same fields, whose derivations are those of the format.  The conditions are that the record
made at the end has exactly the names of kept fields, in order, that at least one field is kept, and that
no name is used by both a kept and a temporary field. -/
theorem C19_rebuild_partial (f : Format) (fs : List Field) (hs : Shaped [] fs f)
    (hc : NoClash (fs.map (·.1))) :
    ∃ flat, flatten f = .ok flat ∧ flat = fs.map (fun p => (flatLabel p.1, p.2)) ∧
      ∀ m rej s c v c' k, Parses m rej (intoFormat flat) s c v c' k ↔ Parses m rej f s c v c' k := by
  refine ⟨_, hs.flatten hc, rfl, fun m rej s c v c' k => ?_⟩
  rw [intoFormat_flatLabel]
  have key : ∀ {before fs f}, Shaped before fs f → ∀ s c v c' k,
      Parses m rej (chainRecord (vars before) fs) s c v c' k ↔ Parses m rej f s c v c' k := by
    intro before fs f h
    induction h with
    | done h =>
      intro s c v c' k
      rename_i before
      cases before with
      | nil => exact absurd rfl h
      | cons x xs => exact Iff.rfl
    | hint _ ih =>
      intro s c v c' k
      rw [ih]
      exact ⟨fun h => .hint h, fun h => by cases h with | hint h => exact h⟩
    | unnamed _ ih =>
      intro s c v c' k
      rw [chainRecord]
      constructor
      · intro h
        cases h with
        | monadSeq h1 h2 => exact .monadSeq h1 ((ih _ _ _ _ _).1 h2)
      · intro h
        cases h with
        | monadSeq h1 h2 => exact .monadSeq h1 ((ih _ _ _ _ _).2 h2)
    | temporary _ ih =>
      intro s c v c' k
      rw [chainRecord]
      constructor
      · intro h
        cases h with
        | letFormat h1 h2 => exact .letFormat h1 ((ih _ _ _ _ _).1 h2)
      · intro h
        cases h with
        | letFormat h1 h2 => exact .letFormat h1 ((ih _ _ _ _ _).2 h2)
    | permanent _ ih =>
      intro s c v c' k
      rw [chainRecord, if_pos rfl, vars_append]
      constructor
      · intro h
        cases h with
        | letFormat h1 h2 => exact .letFormat h1 ((ih _ _ _ _ _).1 h2)
      · intro h
        cases h with
        | letFormat h1 h2 => exact .letFormat h1 ((ih _ _ _ _ _).2 h2)
  rw [← key hs]
  exact ⟨fun h => by cases h with | hint h => exact h, fun h => .hint h⟩

omit [DecidableEq Next] in
/-- For what `record_ext` makes, the rebuilt format is the format itself, so its compiled decoders and their
runs are the same. -/
theorem C19_identity_partial (fs : List Field) (hk : ∃ x, some (x, true) ∈ fs.map (·.1))
    (hc : NoClash (fs.map (·.1))) :
    ∃ flat, flatten (recordExt fs) = .ok flat ∧ intoFormat flat = recordExt fs := by
  have hs : Shaped [] fs (recordExt fs) := by
    refine .hint (Shaped.ofChain fs [] ?_)
    obtain ⟨x, hx⟩ := hk
    intro h
    have := mem_keptNames.2 hx
    rw [List.nil_append] at h
    rw [h] at this
    cases this
  exact ⟨_, hs.flatten hc, intoFormat_flatLabel fs⟩

example : (∃ x, some (x, true) ∈ demo.map (·.1)) ∧ NoClash (demo.map (·.1)) ∧
    Shaped [] [(some ("a", true), .byte .full), (none, .byte .full)]
      (.letFormat (.byte .full) "a" (.hint (.monadSeq (.byte .full) (.compute (.record [("a", .var "a")]))))) := by
  refine ⟨⟨"a", by simp [demo]⟩, ?_, .permanent (.hint (.unnamed (.done (by simp))))⟩
  intro x hx hf
  simp [demo] at hx hf
  rcases hx with rfl | rfl <;> simp at hf

omit [DecidableEq Next] in
/-- Merging records gives the record of all their fields, in order. -/
theorem C19_merge_partial (rs : List (List Field × Format))
    (hs : ∀ r ∈ rs, Shaped [] r.1 r.2 ∧ NoClash (r.1.map (·.1))) :
    mergeRecords (rs.map (·.2)) = .ok (recordExt (rs.map (·.1)).flatten) := by
  have key : ∀ (rs : List (List Field × Format)) (acc : List Field),
      (∀ r ∈ rs, Shaped [] r.1 r.2 ∧ NoClash (r.1.map (·.1))) →
      mergeLoop (rs.map (·.2)) (acc.map fun p => (flatLabel p.1, p.2)) =
        .ok ((acc ++ (rs.map (·.1)).flatten).map fun p => (flatLabel p.1, p.2)) := by
    intro rs
    induction rs with
    | nil => intro acc _; simp [mergeLoop]
    | cons r rs ih =>
      intro acc h
      have h1 := h r (List.mem_cons_self ..)
      rw [List.map_cons, mergeLoop, h1.1.flatten h1.2]
      simp only
      rw [← List.map_append, ih (acc ++ r.1) (fun r hr => h r (List.mem_cons_of_mem _ hr))]
      simp
  refine Panicky.bind_eq_ok.2 ⟨_, key rs [] hs, ?_⟩
  rw [List.nil_append, intoFormat_flatLabel]

example : ∀ r ∈ [([(some ("a", true), Format.byte .full)], recordExt [(some ("a", true), .byte .full)])],
    Shaped [] r.1 r.2 ∧ NoClash (r.1.map (·.1)) := by
  intro r hr
  rw [List.mem_singleton.1 hr]
  exact ⟨.hint (.permanent (.done (by simp))), by intro x _ h; simp at h⟩

omit [DecidableEq Next] in
/-- Remapping a field of a record changes the first field of that name and nothing else; a record without
such a field is unchanged. -/
theorem C19_remap (x : String) (g : Format → Format) (fs : List Field) :
    remapField x g (recordExt fs) = recordExt (changeFirst x g fs) := by
  have key : ∀ (fs : List Field) (cap : List (String × Expr)),
      remapField x g (chainRecord cap fs) = chainRecord cap (changeFirst x g fs) := by
    intro fs
    induction fs with
    | nil =>
      intro cap
      rw [changeFirst, chainRecord]
      split <;> rfl
    | cons f fs ih =>
      intro cap
      obtain ⟨l, f⟩ := f
      cases l with
      | none => simp [chainRecord, remapField, changeFirst, ih]
      | some p =>
        obtain ⟨y, b⟩ := p
        by_cases hy : y = x
        · simp [chainRecord, remapField, changeFirst, hy]
        · simp [chainRecord, remapField, changeFirst, hy, ih]
  show Format.hint (remapField x g (chainRecord [] fs)) = _
  rw [key]; rfl

/-- a record whose field is bound to `a`, is used under that name, and has the label `b` -/
private def renamed : Format :=
  .hint (.letFormat (.byte .full) "a" (.letFormat (.compute (.var "a")) "c"
    (.compute (.record [("b", .var "a"), ("c", .var "c")]))))

omit [DecidableEq Next] in
/-- The full claim fails when a field has another name in the record than in the fields after it: the format
decodes, the rebuilt one does not know the old name and panics. -/
theorem C19_renamed_refuted : ∃ (_ : DecidableEq Next) (flat : Flat) (d d' : Decoder) (st st' : CompSt) (w : Parsed),
    flatten renamed = .ok flat ∧
    compileFormat .empty demoOpts renamed .empty Compiler.new = .ok (d, st) ∧
    compileFormat .empty demoOpts (intoFormat flat) .empty Compiler.new = .ok (d', st') ∧
    Decoder.parse demoEnv 20 d .empty ⟨[1], 0⟩ = .ok w ∧
    Decoder.parse demoEnv 20 d' .empty ⟨[1], 0⟩ = .panic :=
  ⟨fun _ _ => Classical.propDecidable _, _, _, _, _, _, _, rfl, rfl, rfl, rfl, rfl⟩

/-- a record with one field under two labels -/
private def doubled : Format :=
  .hint (.letFormat (.byte .full) "a" (.compute (.record [("p", .var "a"), ("q", .var "a")])))

omit [DecidableEq Next] in
/-- It fails for a field that the record has twice: the rebuilt format drops one of them. -/
theorem C19_doubled_refuted : ∃ (_ : DecidableEq Next) (flat : Flat) (d d' : Decoder) (st st' : CompSt),
    flatten doubled = .ok flat ∧
    compileFormat .empty demoOpts doubled .empty Compiler.new = .ok (d, st) ∧
    compileFormat .empty demoOpts (intoFormat flat) .empty Compiler.new = .ok (d', st') ∧
    Decoder.parse demoEnv 20 d .empty ⟨[1], 0⟩ =
      .ok ⟨(.record [("p", Value.u8 1), ("q", Value.u8 1)], ⟨[1], 1⟩), []⟩ ∧
    Decoder.parse demoEnv 20 d' .empty ⟨[1], 0⟩ = .ok ⟨(.record [("q", Value.u8 1)], ⟨[1], 1⟩), []⟩ :=
  ⟨fun _ _ => Classical.propDecidable _, _, _, _, _, _, rfl, rfl, rfl, rfl, rfl⟩

/-- a record with its fields in another order than they are decoded in -/
private def swapped : Format :=
  .hint (.letFormat (.byte .full) "a" (.letFormat (.byte .full) "b"
    (.compute (.record [("b", .var "b"), ("a", .var "a")]))))

omit [DecidableEq Next] in
/-- It fails for a record whose fields are in another order than they are decoded in: the rebuilt format has
them in the order of decoding. -/
theorem C19_order_refuted : ∃ (_ : DecidableEq Next) (flat : Flat) (d d' : Decoder) (st st' : CompSt),
    flatten swapped = .ok flat ∧
    compileFormat .empty demoOpts swapped .empty Compiler.new = .ok (d, st) ∧
    compileFormat .empty demoOpts (intoFormat flat) .empty Compiler.new = .ok (d', st') ∧
    Decoder.parse demoEnv 20 d .empty ⟨[1, 2], 0⟩ =
      .ok ⟨(.record [("b", Value.u8 2), ("a", Value.u8 1)], ⟨[1, 2], 2⟩), []⟩ ∧
    Decoder.parse demoEnv 20 d' .empty ⟨[1, 2], 0⟩ =
      .ok ⟨(.record [("a", Value.u8 1), ("b", Value.u8 2)], ⟨[1, 2], 2⟩), []⟩ :=
  ⟨fun _ _ => Classical.propDecidable _, _, _, _, _, _, rfl, rfl, rfl, rfl, rfl⟩

omit [DecidableEq Next] in
/-- A field that is temporary in the format is kept in the rebuilt one if a kept field has its name. -/
theorem C19_clash_refuted :
    let fs : List Field := [(some ("a", false), .byte .full), (some ("a", true), .byte .full)]
    flatten (recordExt fs) = .ok [(.permanent "a" "a", .byte .full), (.permanent "a" "a", .byte .full)] := by
  rfl

omit [DecidableEq Next] in
/-- Record formats that keep no field cannot be flattened, and merging one panics. -/
theorem C19_empty_refuted (fs : List Field) (h : ∀ x, some (x, true) ∉ fs.map (·.1)) (rs : List Format) :
    flatten (recordExt fs) = .err () ∧ mergeRecords (recordExt fs :: rs) = .panic := by
  have key : ∀ (fs : List Field), (∀ x, some (x, true) ∉ fs.map (·.1)) → ∀ b : Builder,
      b.accum (chainRecord [] fs) = .err () := by
    intro fs
    induction fs with
    | nil => intro _ b; rfl
    | cons f fs ih =>
      intro h b
      have ih := ih (fun x hx => h x (List.mem_cons_of_mem _ hx))
      obtain ⟨l, f⟩ := f
      cases l with
      | none => rw [chainRecord, Builder.accum]; exact ih _
      | some p =>
        obtain ⟨y, b'⟩ := p
        cases b' with
        | false => rw [chainRecord, Builder.accum]; exact ih _
        | true => exact absurd (List.mem_cons_self ..) (h y)
  have hf : flatten (recordExt fs) = .err () := by
    show (Builder.init.accum (chainRecord [] fs) >>= _) = _
    rw [key fs h]; rfl
  refine ⟨hf, ?_⟩
  show (mergeLoop (recordExt fs :: rs) [] >>= _) = _
  rw [mergeLoop, hf]; rfl

omit [DecidableEq Next] in
/-- Looking up a field by the label it has in the record finds the first field of that label, with the variable
it is bound to; fields that are not kept are never found. -/
theorem C19_lookup (name : String) (flat : Flat) (f : Format) (x : String) :
    lookupValueField name flat = some (f, x) ↔
      ∃ before after, flat = before ++ (.permanent x name, f) :: after ∧
        ∀ y g, (FieldLabel.permanent y name, g) ∉ before := by
  induction flat with
  | nil => simp [lookupValueField]
  | cons p flat ih =>
    have skip : (∀ y g, p ≠ (FieldLabel.permanent y name, g)) →
        (lookupValueField name flat = some (f, x) ↔ ∃ before after,
          p :: flat = before ++ (.permanent x name, f) :: after ∧
            ∀ y g, (FieldLabel.permanent y name, g) ∉ before) := by
      intro hp
      rw [ih]
      constructor
      · rintro ⟨b, a, rfl, h⟩
        refine ⟨p :: b, a, rfl, fun y g hm => ?_⟩
        rcases List.mem_cons.1 hm with rfl | hm
        · exact hp _ _ rfl
        · exact h _ _ hm
      · rintro ⟨b, a, e, h⟩
        cases b with
        | nil => injection e with e1; exact absurd e1 (hp _ _)
        | cons q b =>
          injection e with e1 e2
          exact ⟨b, a, e2, fun y g hm => h y g (List.mem_cons_of_mem _ hm)⟩
    obtain ⟨l, g⟩ := p
    cases l with
    | anonymous => exact skip (fun _ _ h => by cases h)
    | ephemeral y => exact skip (fun _ _ h => by cases h)
    | permanent y lab =>
      by_cases hl : lab = name
      · subst hl
        rw [lookupValueField, if_pos rfl]
        constructor
        · intro h
          cases h
          exact ⟨[], flat, rfl, fun _ _ h => by cases h⟩
        · rintro ⟨b, a, e, h⟩
          cases b with
          | nil => injection e with e1; cases e1; rfl
          | cons q b => injection e with e1; subst e1; exact absurd (List.mem_cons_self ..) (h y g)
      · rw [lookupValueField, if_neg hl]
        exact skip (fun _ _ h => by cases h; exact hl rfl)

omit [DecidableEq Next] in
/-- the format of the field labelled `p`, bound to `a` -/
example : lookupValueField "p" [(.ephemeral "p", .fail), (.permanent "p" "q", .fail), (.permanent "a" "p", .byte .full)]
    = some (.byte .full, "a") := rfl

end

end Record
end Doodle
