import Verif.Lemmas.Fragment

/-!
C67: combining fragments of output gives the text one expects, whichever shortcuts are taken, and
the questions the printers ask of fragments are answered soundly.
-/

namespace Doodle.Out
open Fragment

/-- C67: a sequence is shown as the texts of its items with the separator between each two of them:
leaving out the separator of a single item, or one that shows nothing, changes no output. -/
theorem C67_seq (items : List Fragment) (sep : Option Fragment) :
    (seq items sep).text
      = between ((sep.map text).getD []) (items.map text) :=
  text_seq items sep

example : (seq [.char 'a', .empty, .char 'b'] (some (.string [',', ' ']))).text
    = ['a', ',', ' ', ',', ' ', 'b'] := rfl

/-- C67: joining, surrounding and breaking lines put texts after each other. -/
theorem C67_cat (a b c : Fragment) :
    (a.concat b).text = a.text ++ b.text
    ∧ (a.delimit b c).text = b.text ++ a.text ++ c.text
    ∧ a.catBreak.text = a.text ++ ['\n'] := by
  simp [delimit, catBreak, text_concat, text]

example : ((Fragment.string ['x']).delimit (.char '(') (.char ')')).text = ['(', 'x', ')'] := rfl

/-- C67: a fragment that is called vacuous shows nothing, and, as long as no atom shows nothing,
every fragment that shows nothing is called vacuous. -/
theorem C67_vacuous (f : Fragment) :
    (f.isVacuous = true → f.text = [])
    ∧ (f.Atoms (· ≠ []) → f.text = [] → f.isVacuous = true) :=
  ⟨text_vacuous f, vacuous_of_text f⟩

example : (Fragment.joined (.char ',') [.string []]).isVacuous = true
    ∧ (Fragment.joined (.char ',') [.string [], .empty]).isVacuous = false := ⟨rfl, rfl⟩

/-- C67: `intervene` puts the separator between two texts exactly when neither of them is empty. -/
theorem C67_intervene (a sep b : Fragment) (ha : a.Atoms (· ≠ [])) (hb : b.Atoms (· ≠ [])) :
    (a.intervene sep b).text
      = if a.text = [] ∨ b.text = [] then a.text ++ b.text else a.text ++ sep.text ++ b.text := by
  unfold intervene
  split
  · rename_i h
    simp [text_vacuous a h]
  · rename_i h
    have h0 : a.text ≠ [] := fun e => h (vacuous_of_text a ha e)
    split
    · rename_i h2
      simp [text_vacuous b h2]
    · rename_i h2
      have h1 : b.text ≠ [] := fun e => h2 (vacuous_of_text b hb e)
      have hn : ¬(a.text = [] ∨ b.text = []) := fun e => e.elim h0 h1
      simp only [if_neg hn]
      split
      · rename_i h3
        simp [text_vacuous sep h3, text_concat]
      · simp [text_concat]

example : (Fragment.Atoms (· ≠ []) (.atom ['1'])) ∧ (Fragment.Atoms (· ≠ []) (.string [])) := by
  simp [Fragment.Atoms]

example : ((Fragment.atom ['1']).intervene (.char ' ') (.string [])).text = ['1']
    ∧ ((Fragment.atom ['1']).intervene (.char ' ') (.char '2')).text = ['1', ' ', '2'] := ⟨rfl, rfl⟩

/-- C67: whatever the history of a builder, what is finally shown is everything that was written or
pushed, in order. -/
theorem C67_builder (steps : List Step) :
    (Step.run .new steps).finalize.text = (steps.map Step.added).flatten := by
  rw [Builder.text_finalize, Step.content_run]
  simp [Builder.content, Builder.new, text]

example : (Step.run .new [.write (.char 'a'), .push .empty, .write (.char 'b'), .renew,
    .push (.char 'c')]).finalize.text = ['a', 'b', 'c'] := rfl

/-- C67: with a separator, pushed fragments are shown with the separator between each two. -/
theorem C67_builder_sep (items : List Fragment) (sep : Fragment) :
    ((Step.run .new (items.map Step.push)).finalizeWithSep sep).text
      = between sep.text (items.map text) := by
  have h : ∀ (fs : List Fragment) (frozen : List Fragment),
      Step.run ⟨frozen, .empty⟩ (fs.map Step.push) = ⟨frozen ++ fs, .empty⟩ := by
    intro fs
    induction fs with
    | nil => intro frozen; simp [Step.run]
    | cons f fs ih =>
      intro frozen
      simp only [List.map_cons, Step.run]
      rw [show Builder.push ⟨frozen, .empty⟩ f = ⟨frozen ++ [f], .empty⟩ from rfl, ih]
      simp
  rw [Builder.new, h]
  simp only [Builder.finalizeWithSep, Builder.renew, isEmpty, if_true, List.nil_append]
  rw [text_seq]
  rfl

example : ((Step.run .new [.push (.char 'a'), .push (.char 'b')]).finalizeWithSep (.char '|')).text
    = ['a', '|', 'b'] := rfl

/-- C67: a fragment that is said to fit inline shows no newline and contains no guide, as long as
its atoms show no newline. -/
theorem C67_inline_partial (f : Fragment) (ha : f.Atoms ('\n' ∉ ·)) (h : f.fitsInline = true) :
    '\n' ∉ f.text ∧ f.NoSymbol :=
  inline_sound f h ha

example : (Fragment.joined (.char ',') [.atom ['1'], .string ['a']]).fitsInline = true
    ∧ (Fragment.cat (.symbol .elbow) (.char 'x')).fitsInline = false
    ∧ (Fragment.joined (.char '\n') [.char 'a', .char 'b']).fitsInline = false := by decide

/-- C67: without that hypothesis the documented promise fails: an atom whose text has a newline is
said to fit inline. -/
theorem C67_inline_refuted : ∃ f : Fragment, f.fitsInline = true ∧ '\n' ∈ f.text :=
  ⟨.atom ['\n'], rfl, by simp [text]⟩

/-- C67: a fragment that is said to be a single line shows one line, possibly with its newline. -/
theorem C67_single_line_partial (f : Fragment) (ha : f.Atoms ('\n' ∉ ·))
    (h : f.isSingleLine true = true) : OneLine f.text := by
  rcases single_sound f true h ha with h | ⟨_, l, hl, h⟩
  · exact ⟨_, h, .inl rfl⟩
  · exact ⟨l, hl, .inr h⟩

example : (Fragment.plain [.symbol .elbow, .string ['a'], .char '\n']).isSingleLine true = true
    ∧ (Fragment.plain [.string ['a', '\n'], .symbol .elbow]).isSingleLine true = false := by decide

/-- C67: the converse fails: a line with its newline, followed by a fragment that shows nothing, is
not said to be a single line. -/
theorem C67_single_line_refuted : ∃ f : Fragment, OneLine f.text ∧ f.isSingleLine true = false :=
  ⟨(Fragment.char '\n').concat (.string []), ⟨[], by simp, .inr rfl⟩, by decide⟩

/-- C67: a field and its value are joined on one line if the value fits there, and else the value
starts on the next line; only in the second case is the trailer shown, and in the first the text
ends with a newline. -/
theorem C67_join (a b trailer : Fragment) :
    (a.joinWithWsp b).text
      = (if b.fitsInline = true then a.text ++ [' '] ++ b.text ++ ['\n']
         else a.text ++ ['\n'] ++ b.text)
    ∧ (a.joinWithWspEol b trailer).text
      = (if b.fitsInline = true then a.text ++ [' '] ++ b.text ++ ['\n']
         else a.text ++ trailer.text ++ ['\n'] ++ b.text) := by
  unfold joinWithWsp joinWithWspEol
  constructor <;> split <;> simp [catBreak, text_concat, text]

example : ((Fragment.string ['a']).joinWithWsp (.atom ['1'])).text = ['a', ' ', '1', '\n'] := rfl

end Doodle.Out
