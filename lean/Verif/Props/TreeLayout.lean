import Verif.Lemmas.TreeRead

/-!
C68: the tree view of a value draws its outline, and the outline can be read back from the text.
-/

namespace Doodle.Out

/-- texts for the examples -/
def sampleTexts : Texts := ⟨fun _ => ['7'], fun _ => "'c'".toList, fun _ => "shown".toList⟩

theorem sampleTexts_plain : sampleTexts.Plain :=
  ⟨fun _ => by simp [sampleTexts], fun _ => by simp [sampleTexts], fun _ _ => by simp [sampleTexts]⟩

/-- an example: a record with a hidden field, a pair, flags and a variant around a record -/
def sampleValue : Value :=
  .record [("a", .tuple [.bool true, .optSome (.char 'x')]), ("__b", .char 'y'),
    ("c", .record [("on", .bool true), ("off", .bool false), ("up", .mapped .unit (.bool true))]),
    ("d", .variant "v" (.seq (.dup 13 (.view 3))))]

theorem sampleValue_plain : PlainLabels sampleValue := by
  simp [sampleValue, PlainLabels, PlainLabelsAll, PlainLabelsFields, Value.unit]

/-- C68: what the printer writes is the drawing of the outline of the value: its text if it has one,
and else one line for each entry, with guides for the entries above it. -/
theorem C68_drawing_partial (t : Texts) (ht : t.Plain) (v : Value) (hv : PlainLabels v) :
    treeText t v = (outline t 10 v).text := by
  have h := good_compile t ht 10 v hv
  unfold treeText
  cases ho : outline t 10 v with
  | inline s => rw [ho] at h; exact (h.2 []).2
  | block ns => rw [ho] at h; exact (h.2.2 []).2

example : treeText sampleTexts sampleValue
    = ("├── a :=\n" ++ "│   ├── 0 := true\n" ++ "│   └── 1 := { some := 'c' }\n"
      ++ "├── c := bool-flags[on|up]\n" ++ "└── d :=\n" ++ "    └── v :=\n"
      ++ "        ├── 0 := VIEW[+3]\n" ++ "        ├── 1 := VIEW[+3]\n"
      ++ "        ├── 2 := VIEW[+3]\n" ++ "        ├── 3 := VIEW[+3]\n"
      ++ "        ├── 4 := VIEW[+3]\n" ++ "        ├── 5 := VIEW[+3]\n"
      ++ "        ├── 6 := VIEW[+3]\n" ++ "        ├── 7 := VIEW[+3]\n"
      ++ "        ├── 8 := VIEW[+3]\n" ++ "        ├── 9 := VIEW[+3]\n" ++ "        ~\n"
      ++ "        └── 12 := VIEW[+3]\n").toList := by decide +kernel

/-- C68: the same below any guides: a view nested in another one is shifted by exactly the guides
of the entries it is below of. -/
theorem C68_nested_partial (t : Texts) (ht : t.Plain) (v : Value) (hv : PlainLabels v)
    (g : List Column) :
    (compile t (some 10) v g).text
      = match outline t 10 v with
        | .inline s => s
        | .block ns => unlines (forestLines (g.map fun c => decide (c = .branch)) ns) := by
  have hg : g.map (fun c => decide (c = .branch)) = g.map Column.bar := by
    apply List.map_congr_left
    intro c _
    cases c <;> rfl
  have h := good_compile t ht 10 v hv
  rw [hg]
  cases ho : outline t 10 v with
  | inline s => rw [ho] at h; exact (h.2 g).2
  | block ns => rw [ho] at h; exact (h.2.2 g).2

example : (compile sampleTexts (some 10) (.tuple [.bool true]) [.branch, .space]).text
    = "│       └── 0 := true\n".toList := by decide +kernel

/-- C68: reading the guides of a view gives back the outline of the value. -/
theorem C68_read_partial (t : Texts) (ht : t.Plain) (v : Value) (hv : PlainLabels v) :
    readView (treeText t v) = outline t 10 v := by
  have h := good_compile t ht 10 v hv
  rw [C68_drawing_partial t ht v hv]
  cases ho : outline t 10 v with
  | inline s =>
    rw [ho] at h
    have := h.1
    simp [readView, Shown.text, this]
  | block ns =>
    rw [ho] at h
    have := newline_mem_unlines h.1 []
    simp [readView, Shown.text, this, readTree_unlines ns h.2.1]

example : ∃ ns, outline sampleTexts 10 sampleValue = .block ns ∧ ns.length = 3 := ⟨_, rfl, rfl⟩

/-- C68: so two values that look alike have the same outline. -/
theorem C68_distinct_partial (t : Texts) (ht : t.Plain) (v w : Value) (hv : PlainLabels v)
    (hw : PlainLabels w) (h : treeText t v = treeText t w) : outline t 10 v = outline t 10 w := by
  rw [← C68_read_partial t ht v hv, ← C68_read_partial t ht w hw, h]

example : treeText sampleTexts (.tuple [.bool true]) ≠ treeText sampleTexts (.tuple [.bool false]) := by
  decide +kernel

/-- C68: a value shows no newline exactly if its outline is a text; in particular nothing that is not
compound is spread over lines. -/
theorem C68_inline_partial (t : Texts) (ht : t.Plain) (v : Value) (hv : PlainLabels v) :
    ('\n' ∉ treeText t v ↔ ∃ s, outline t 10 v = .inline s)
    ∧ (Compound v = false → '\n' ∉ treeText t v) := by
  have h := good_compile t ht 10 v hv
  have h1 : '\n' ∉ treeText t v ↔ ∃ s, outline t 10 v = .inline s := by
    rw [C68_drawing_partial t ht v hv]
    cases ho : outline t 10 v with
    | inline s => rw [ho] at h; simpa [Shown.text] using h.1
    | block ns =>
      rw [ho] at h
      simpa [Shown.text] using newline_mem_unlines h.1 []
  exact ⟨h1, fun hc => h1.2 (inline_of_not_compound t 10 v hc)⟩

example : Compound (.variant "v" (.optSome (.bool true))) = false ∧ Compound sampleValue = true :=
  ⟨rfl, rfl⟩

/-- C68: without the hypothesis on labels this fails: a record of two fields, one with a newline in
its name, looks like one of three fields. -/
theorem C68_newline_refuted : ∃ v w : Value, treeText sampleTexts v = treeText sampleTexts w
    ∧ (∃ fs, v = .record fs ∧ fs.length = 3) ∧ (∃ fs, w = .record fs ∧ fs.length = 2) :=
  ⟨.record [("a", .view 0), ("b", .view 0), ("c", .view 0)],
    .record [("a := VIEW[+0]\n├── b", .view 0), ("c", .view 0)], by decide +kernel,
    ⟨_, rfl, rfl⟩, ⟨_, rfl, rfl⟩⟩

/-- C68: fields whose names start with two underscores leave no trace in the view of a record. -/
theorem C68_hidden (t : Texts) (fs : List (String × Value)) :
    treeText t (.record fs)
      = treeText t (.record (fs.filter fun f => !("__".toList.isPrefixOf f.1.toList))) := by
  have key : ∀ fs : List (String × Value),
      (compileFields t (some 10) fs).filter (fun f => Visible f.1)
        = compileFields t (some 10) (fs.filter fun f => Visible f.1) := by
    intro fs
    induction fs with
    | nil => simp [compileFields]
    | cons f fs ih =>
      obtain ⟨l, v⟩ := f
      simp only [compileFields, List.filter_cons]
      split <;> simp [compileFields, ih]
  have e1 : ∀ fs : List (String × Value × (List Column → Fragment)),
      (if fs.any (fun f => hidden f.1) then fs.filter (fun f => !hidden f.1) else fs)
      = fs.filter (fun f => Visible f.1) := by
    intro fs
    simp only [hidden_eq]
    split
    · rfl
    · rename_i hn
      symm
      rw [List.filter_eq_self]
      intro f hf
      rw [← hidden_eq]
      simp only [List.any_eq_true, not_exists, not_and, Bool.not_eq_true] at hn
      simp [hn f hf]
  change treeText t (.record fs) = treeText t (.record (fs.filter fun f => Visible f.1))
  simp only [treeText, compile, compileRecord, e1]
  have e2 : (compileFields t (some 10) (fs.filter fun f => Visible f.1)).filter
      (fun f => Visible f.1) = (compileFields t (some 10) fs).filter (fun f => Visible f.1) := by
    rw [← key, List.filter_filter]
    simp
  rw [e2]

example : treeText sampleTexts (.record [("__x", .view 0), ("y", .view 1)])
    = "└── y := VIEW[+1]\n".toList := by decide +kernel

/-- C68: but around a record they do: with nothing but hidden fields the record is drawn below its
variant, and without fields inside braces. -/
theorem C68_hidden_refuted : ∃ (l : String) (fs : List (String × Value)),
    treeText sampleTexts (.variant l (.record fs))
      ≠ treeText sampleTexts
          (.variant l (.record (fs.filter fun f => !("__".toList.isPrefixOf f.1.toList)))) :=
  ⟨"v", [("__x", .view 0)], by decide +kernel⟩

/-- C68: the view of a sequence is complete up to eleven items, and of longer ones shows the first
ten and the last with their positions, and a mark between them. -/
theorem C68_preview_partial (t : Texts) (ht : t.Plain) :
    (∀ l : List Value, PlainLabelsAll l → l ≠ [] → l.length ≤ 11 →
      treeText t (.seq (.strict l)) = unlines (forestLines [] (enumerate 0 (outlines t 10 l))))
    ∧ ∀ (a mid : List Value) (z : Value), PlainLabelsAll (a ++ mid ++ [z]) → a.length = 10 →
      mid ≠ [] →
      treeText t (.seq (.strict (a ++ mid ++ [z])))
        = unlines (forestLines [] (enumerate 0 (outlines t 10 a)
            ++ [.skipped, entry (Nat.toDigits 10 (10 + mid.length)) (outline t 10 z)])) := by
  constructor
  · intro l hl hne hlen
    rw [C68_drawing_partial t ht _ (by simpa only [PlainLabels] using hl)]
    have : (outlines t 10 l).isEmpty = false := by
      cases l with
      | nil => exact absurd rfl hne
      | cons _ _ => rfl
    simp only [outline, seqShown, this, Bool.false_eq_true, if_false, Shown.text]
    rw [abridge, if_pos (by rw [enumerate_length, outlines_length]; exact hlen)]
  · intro a mid z hl ha hne
    rw [C68_drawing_partial t ht _ (by simpa only [PlainLabels] using hl)]
    have hm : 0 < mid.length := List.length_pos_iff.2 hne
    have : (outlines t 10 (a ++ mid ++ [z])).isEmpty = false := by
      cases a with
      | nil => simp at ha
      | cons _ _ => rfl
    simp only [outline, seqShown, this, Bool.false_eq_true, if_false, Shown.text]
    congr 2
    have hlen : (enumerate 0 (outlines t 10 (a ++ mid ++ [z]))).length = 11 + mid.length := by
      rw [enumerate_length, outlines_length]; simp; omega
    rw [abridge, if_neg (by omega), hlen]
    have hla : (enumerate 0 (outlines t 10 a)).length = 10 := by
      rw [enumerate_length, outlines_length, ha]
    rw [outlines_append, enumerate_append, outlines_append, enumerate_append]
    have hlm : (enumerate (0 + (outlines t 10 a).length) (outlines t 10 mid)).length = mid.length := by
      rw [enumerate_length, outlines_length]
    rw [List.append_assoc, List.take_left' hla, ← List.append_assoc,
      List.drop_left' (by rw [List.length_append, hla, hlm]; omega)]
    simp [outlines, enumerate, outlines_length, ha]

example : PlainLabelsAll (List.replicate 10 (.view 0) ++ [.view 1] ++ [.view 2]) := by
  simp [PlainLabelsAll, PlainLabels, List.replicate]

example : treeText sampleTexts (.seq (.strict (List.replicate 10 (.view 0) ++ [.view 1])))
    ≠ treeText sampleTexts (.seq (.strict (List.replicate 10 (.view 0) ++ [.view 2]))) := by
  decide +kernel

end Doodle.Out
