import Verif.Lemmas.TreeLayout

/-! Reading a drawn outline back. -/

namespace Doodle.Out

/-- what each line of an outline is read as -/
def marks (d : Nat) : List Node → List (Nat × Option (List Char))
  | [] => []
  | .skipped :: ns => (d, none) :: marks d ns
  | .field h cs :: ns => (d, some h) :: marks (d + 1) cs ++ marks d ns

theorem splitLines_line (l : List Char) (h : '\n' ∉ l) (rest : List Char) : ∀ cur,
    splitLines cur (l ++ '\n' :: rest) = (cur ++ l) :: splitLines [] rest := by
  induction l with
  | nil => intro cur; simp [splitLines]
  | cons c cs ih =>
    intro cur
    have hc : c ≠ '\n' := fun e => h (by simp [e])
    rw [List.cons_append, splitLines, if_neg hc, ih (fun hm => h (by simp [hm]))]
    simp

theorem splitLines_unlines (ls : List (List Char)) (h : ∀ l ∈ ls, '\n' ∉ l) :
    splitLines [] (unlines ls) = ls := by
  induction ls with
  | nil => rfl
  | cons l ls ih =>
    rw [unlines, splitLines_line l (h l (by simp)), ih (fun m hm => h m (by simp [hm]))]
    simp

theorem guides_plain (g : List Bool) : '\n' ∉ guides g := by
  induction g with
  | nil => simp [guides]
  | cons b g ih =>
    cases b
    · simp only [guides, List.mem_append, not_or]; exact ⟨by decide, ih⟩
    · simp only [guides, List.mem_append, not_or]; exact ⟨by decide, ih⟩

mutual
theorem lines_plain : ∀ (n : Node) (g : List Bool) (last : Bool), PlainNode n →
    ∀ l ∈ Node.lines g last n, '\n' ∉ l
  | .skipped, g, last, _ => by
    simp only [Node.lines, List.mem_singleton]
    rintro l rfl
    simp only [List.mem_append, not_or]
    exact ⟨guides_plain g, by decide⟩
  | .field h cs, g, last, hp => by
    simp only [PlainNode] at hp
    simp only [Node.lines, List.mem_cons]
    rintro l (rfl | hl)
    · simp only [List.mem_append, not_or]
      exact ⟨⟨guides_plain g, by cases last <;> decide⟩, hp.1⟩
    · exact forestLines_plain cs _ hp.2 l hl
theorem forestLines_plain : ∀ (ns : List Node) (g : List Bool), PlainNodes ns →
    ∀ l ∈ forestLines g ns, '\n' ∉ l
  | [], _, _ => by simp [forestLines]
  | n :: ns, g, hp => by
    simp only [PlainNodes] at hp
    simp only [forestLines, List.mem_append]
    rintro l (hl | hl)
    · exact lines_plain n g _ hp.1 l hl
    · exact forestLines_plain ns g hp.2 l hl
end

theorem readLine_guides (g : List Bool) (cs : List Char) :
    readLine (guides g ++ cs) = (readLine cs).map fun r => (r.1 + g.length, r.2) := by
  induction g with
  | nil => simp [guides]
  | cons b g ih =>
    have : readLine (guides (b :: g) ++ cs)
        = (readLine (guides g ++ cs)).map fun r => (r.1 + 1, r.2) := by
      cases b
      · simp only [guides]
        rw [show "    ".toList = [' ', ' ', ' ', ' '] from rfl]
        simp only [List.cons_append, List.nil_append]
        rw [readLine]
      · simp only [guides]
        rw [show "│   ".toList = ['│', ' ', ' ', ' '] from rfl]
        simp only [List.cons_append, List.nil_append]
        rw [readLine]
    rw [this, ih, Option.map_map]
    cases readLine cs with
    | none => rfl
    | some r => simp [Nat.add_assoc]

mutual
theorem read_lines : ∀ (n : Node) (g : List Bool) (last : Bool),
    (Node.lines g last n).filterMap readLine = marks g.length [n]
  | .skipped, g, last => by
    simp only [Node.lines, marks, List.filterMap_cons, readLine_guides]
    simp [readLine]
  | .field h cs, g, last => by
    simp only [Node.lines, marks, List.filterMap_cons, List.append_assoc, readLine_guides]
    have : readLine ((if last = true then "└── ".toList else "├── ".toList) ++ h)
        = some (0, some h) := by
      cases last
      · rw [if_neg (by decide), show "├── ".toList = ['├', '─', '─', ' '] from rfl]
        simp only [List.cons_append, List.nil_append]
        rw [readLine]
      · rw [if_pos rfl, show "└── ".toList = ['└', '─', '─', ' '] from rfl]
        simp only [List.cons_append, List.nil_append]
        rw [readLine]
    rw [this]
    have := read_forest cs (g ++ [!last])
    simp [this]
theorem read_forest : ∀ (ns : List Node) (g : List Bool),
    (forestLines g ns).filterMap readLine = marks g.length ns
  | [], g => by simp [forestLines, marks]
  | n :: ns, g => by
    have h1 := read_lines n g ns.isEmpty
    have h2 := read_forest ns g
    rw [forestLines, List.filterMap_append, h1, h2]
    cases n <;> simp [marks]
end

theorem marks_ge : ∀ (ns : List Node) (d : Nat), ∀ r ∈ marks d ns, d ≤ r.1
  | [], d => by simp [marks]
  | .skipped :: ns, d => by
    simp only [marks, List.mem_cons]
    rintro r (rfl | h)
    · exact Nat.le_refl _
    · exact marks_ge ns d r h
  | .field h cs :: ns, d => by
    simp only [marks, List.cons_append, List.mem_cons, List.mem_append]
    rintro r (rfl | h | h)
    · exact Nat.le_refl _
    · have := marks_ge cs (d + 1) r h; omega
    · exact marks_ge ns d r h

theorem marks_head (ns : List Node) (d : Nat) : ∀ r ∈ (marks d ns).head?, r.1 = d := by
  match ns with
  | [] => simp [marks]
  | .skipped :: ns => simp [marks]
  | .field h cs :: ns => simp [marks]

theorem assemble_marks : ∀ (ns : List Node) (d fuel : Nat), (marks d ns).length ≤ fuel →
    assemble fuel (marks d ns) = ns
  | [], d, fuel, _ => by cases fuel <;> simp [marks, assemble]
  | .skipped :: ns, d, fuel, h => by
    simp only [marks, List.length_cons] at h ⊢
    cases fuel with
    | zero => omega
    | succ fuel => rw [assemble, assemble_marks ns d fuel (by omega)]
  | .field hd cs :: ns, d, fuel, h => by
    simp only [marks, List.cons_append, List.length_cons, List.length_append] at h ⊢
    cases fuel with
    | zero => omega
    | succ fuel =>
      have ht : (marks (d + 1) cs ++ marks d ns).takeWhile (fun r => decide (d < r.1))
          = marks (d + 1) cs := by
        rw [List.takeWhile_append_of_pos (by
          intro r hr; have := marks_ge cs (d + 1) r hr; simp; omega)]
        have := marks_head ns d
        cases hm : marks d ns with
        | nil => simp
        | cons r rs =>
          rw [hm] at this
          have := this r (by simp)
          rw [List.takeWhile_cons_of_neg (by simp [this])]
          simp
      have hdw : (marks (d + 1) cs ++ marks d ns).dropWhile (fun r => decide (d < r.1))
          = marks d ns := by
        rw [List.dropWhile_append_of_pos (by
          intro r hr; have := marks_ge cs (d + 1) r hr; simp; omega)]
        have := marks_head ns d
        cases hm : marks d ns with
        | nil => simp
        | cons r rs =>
          rw [hm] at this
          have := this r (by simp)
          rw [List.dropWhile_cons_of_neg (by simp [this])]
      rw [assemble, ht, hdw, assemble_marks cs (d + 1) fuel (by omega),
        assemble_marks ns d fuel (by omega)]

theorem readTree_unlines (ns : List Node) (h : PlainNodes ns) :
    readTree (unlines (forestLines [] ns)) = ns := by
  unfold readTree
  rw [splitLines_unlines _ (forestLines_plain ns [] h), read_forest]
  exact assemble_marks ns _ _ (Nat.le_refl _)

theorem newline_mem_unlines {ns : List Node} (h : ns ≠ []) (g : List Bool) :
    '\n' ∈ unlines (forestLines g ns) := by
  match ns with
  | [] => exact absurd rfl h
  | .skipped :: ns => simp [forestLines, Node.lines, unlines]
  | .field hd cs :: ns => simp [forestLines, Node.lines, unlines]

theorem outlines_append (t : Texts) (p : Nat) (a b : List Value) :
    outlines t p (a ++ b) = outlines t p a ++ outlines t p b := by
  induction a with
  | nil => rfl
  | cons v a ih => simp [outlines, ih]

theorem outlines_length (t : Texts) (p : Nat) (a : List Value) :
    (outlines t p a).length = a.length := by
  induction a with
  | nil => rfl
  | cons v a ih => simp [outlines, ih]

theorem enumerate_append (a b : List Shown) : ∀ i,
    enumerate i (a ++ b) = enumerate i a ++ enumerate (i + a.length) b := by
  induction a with
  | nil => intro i; simp [enumerate]
  | cons s a ih =>
    intro i
    simp only [List.cons_append, enumerate, ih, List.length_cons]
    rw [show i + 1 + a.length = i + (a.length + 1) by omega]

theorem enumerate_length (a : List Shown) : ∀ i, (enumerate i a).length = a.length := by
  induction a with
  | nil => intro i; rfl
  | cons s a ih => intro i; simp [enumerate, ih]

end Doodle.Out
