import Verif.Spec.TreeLayout
import Verif.Lemmas.Fragment

/-! Lemmas on the layout of tree views. -/

namespace Doodle.Out
open Fragment

/-- whether more follows below the entry a column stands for -/
def Column.bar : Column → Bool
  | .branch => true
  | .space => false

theorem toDigits_plain (n : Nat) : '\n' ∉ Nat.toDigits 10 n := by
  intro h
  have := Nat.isDigit_of_mem_toDigits (by omega) (by omega) h
  revert this
  decide

theorem unlines_append (a b : List (List Char)) : unlines (a ++ b) = unlines a ++ unlines b := by
  induction a with
  | nil => rfl
  | cons l ls ih => simp [unlines, ih]

theorem guides_append (a b : List Bool) : guides (a ++ b) = guides a ++ guides b := by
  induction a with
  | nil => rfl
  | cons x xs ih => cases x <;> simp [guides, ih]

/-! ### Gutters -/

theorem gutter_content (g : List Column) : ∀ b : Builder,
    (g.foldl (fun b c => b.push (.symbol c.symbol)) b).content
      = b.content ++ guides (g.map Column.bar) := by
  induction g with
  | nil => intro b; simp [guides]
  | cons c g ih =>
    intro b
    rw [List.foldl_cons, ih, Builder.content_push]
    cases c <;> simp [guides, Column.bar, Column.symbol, text, Symbol.text]

theorem text_gutter (g : List Column) : (compileGutter g).text = guides (g.map Column.bar) := by
  rw [compileGutter, Builder.text_finalize, gutter_content]
  simp [Builder.content, Builder.new, text]

/-! ### Fields -/

mutual
/-- headlines have no newlines -/
def PlainNode : Node → Prop
  | .skipped => True
  | .field h cs => '\n' ∉ h ∧ PlainNodes cs
/-- the same for siblings -/
def PlainNodes : List Node → Prop
  | [] => True
  | n :: ns => PlainNode n ∧ PlainNodes ns
end

theorem plainNodes_iff (ns : List Node) : PlainNodes ns ↔ ∀ n ∈ ns, PlainNode n := by
  induction ns with
  | nil => simp [PlainNodes]
  | cons n ns ih => simp [PlainNodes, ih]

/-- a fragment under any gutter shows what it should -/
def Good (f : List Column → Fragment) : Shown → Prop
  | .inline t => '\n' ∉ t ∧ ∀ g, (f g).fitsInline = true ∧ (f g).text = t
  | .block ns => ns ≠ [] ∧ PlainNodes ns ∧ ∀ g, (f g).fitsInline = false
      ∧ (f g).text = unlines (forestLines (g.map Column.bar) ns)

theorem plain_entry {f : List Column → Fragment} {s : Shown} {label : List Char} (h : Good f s)
    (hl : '\n' ∉ label) : PlainNode (entry label s) := by
  cases s with
  | inline t =>
    simp only [entry, PlainNode, PlainNodes, and_true]
    have := h.1
    simp [hl, this]
  | block ns =>
    simp only [entry, PlainNode]
    exact ⟨by simp [hl], h.2.1⟩

theorem text_fieldValue {f : List Column → Fragment} {s : Shown} (h : Good f s)
    (g : List Column) (last : Bool) (gs : List Bool) (hg : g.map Column.bar = gs ++ [!last])
    (label : List Char) :
    guides gs ++ (if last then "└── ".toList else "├── ".toList) ++ label
      ++ (compileFieldValue g f).text
      = unlines (Node.lines gs last (entry label s)) := by
  unfold compileFieldValue joinWithWsp
  cases s with
  | inline t =>
    have := h.2 g
    simp [this.1, text, text_concat, catBreak, this.2, entry, Node.lines, forestLines, unlines]
  | block ns =>
    have := h.2.2 g
    simp [this.1, text, text_concat, catBreak, this.2, entry, Node.lines, unlines, hg]

theorem three_push (a b c : Fragment) :
    ((Builder.new.push a).push b |>.push c).finalize = .plain [a, b, c] := by
  cases a <;> rfl

theorem text_fieldContinue {f : List Column → Fragment} {s : Shown} (h : Good f s)
    (g : List Column) (label : List Char) :
    (fieldContinue g label f).text = unlines (Node.lines (g.map Column.bar) false (entry label s)) := by
  rw [← text_fieldValue h (g ++ [.branch]) false (g.map Column.bar) (by simp [Column.bar]) label]
  unfold fieldContinue
  simp only [three_push]
  simp [text, textAll, text_gutter, text_concat, Symbol.text]

theorem text_fieldLast {f : List Column → Fragment} {s : Shown} (h : Good f s)
    (g : List Column) (label : List Char) :
    (fieldLast g label f).text = unlines (Node.lines (g.map Column.bar) true (entry label s)) := by
  rw [← text_fieldValue h (g ++ [.space]) true (g.map Column.bar) (by simp [Column.bar]) label]
  unfold fieldLast
  simp only [three_push]
  simp [text, textAll, text_gutter, text_concat, Symbol.text]

theorem inline_fieldLast (g : List Column) (label : List Char) (f : List Column → Fragment) :
    (fieldLast g label f).fitsInline = false := by
  unfold fieldLast
  simp only [three_push]
  simp [fitsInline, allInline, fitsInline_concat]

theorem text_skipped (g : List Column) :
    (fieldSkipped g).text = unlines (Node.lines (g.map Column.bar) false .skipped) := by
  simp [fieldSkipped, text, text_concat, text_gutter, Node.lines, unlines]

/-! ### Siblings -/

/-- labelled fragments show what they should -/
inductive Goods : List (List Char × (List Column → Fragment)) → List Node → Prop where
  | nil : Goods [] []
  | cons {l f s fs ns} : '\n' ∉ l → Good f s → Goods fs ns → Goods ((l, f) :: fs) (entry l s :: ns)

theorem Goods.length {fs ns} (h : Goods fs ns) : fs.length = ns.length := by
  induction h with
  | nil => rfl
  | cons _ _ _ ih => simp [ih]

theorem Goods.plain {fs ns} (h : Goods fs ns) : PlainNodes ns := by
  induction h with
  | nil => trivial
  | cons hl hf _ ih => exact ⟨plain_entry hf hl, ih⟩

theorem Goods.take {fs ns} (h : Goods fs ns) : ∀ k, Goods (fs.take k) (ns.take k) := by
  induction h with
  | nil => intro k; simp; exact .nil
  | cons hl hf _ ih =>
    intro k
    cases k with
    | zero => simp; exact .nil
    | succ k => simp; exact .cons hl hf (ih k)

theorem Goods.get {fs ns} (h : Goods fs ns) : ∀ (k : Nat) x, fs[k]? = some x →
    ∃ s, '\n' ∉ x.1 ∧ Good x.2 s ∧ ns[k]? = some (entry x.1 s) := by
  induction h with
  | nil => intro k x h; simp at h
  | cons hl hf _ ih =>
    intro k x h
    cases k with
    | zero =>
      simp only [List.getElem?_cons_zero, Option.some.injEq] at h
      subst h
      exact ⟨_, hl, hf, rfl⟩
    | succ k => simpa using ih k x (by simpa using h)

/-- the lines of entries that others follow -/
def continued (g : List Bool) (ns : List Node) : List (List Char) :=
  ns.flatMap (Node.lines g false)

theorem forestLines_snoc (g : List Bool) (ns : List Node) (n : Node) :
    forestLines g (ns ++ [n]) = continued g ns ++ Node.lines g true n := by
  induction ns with
  | nil => simp [forestLines, continued]
  | cons m ns ih =>
    have : (ns ++ [n]).isEmpty = false := by cases ns <;> rfl
    simp [forestLines, ih, continued, this]

theorem text_layContinue {fs ns} (h : Goods fs ns) (g : List Column) :
    (layContinue g fs).text = unlines (continued (g.map Column.bar) ns) := by
  have : ∀ a : Fragment,
      (fs.foldl (fun frag f => frag.concat (fieldContinue g f.1 f.2)) a).text
        = a.text ++ unlines (continued (g.map Column.bar) ns) := by
    induction h with
    | nil => intro a; simp [continued, unlines]
    | cons hl hf _ ih =>
      intro a
      rw [List.foldl_cons, ih, text_concat, text_fieldContinue hf]
      simp [continued, unlines_append]
  simpa [layContinue, text] using this .empty

theorem good_fields {fs ns} (h : Goods fs ns) (hne : ns ≠ []) :
    Good (fun g => layFields g fs) (.block ns) := by
  refine ⟨hne, h.plain, fun g => ?_⟩
  have hlen := h.length
  have hpos : 0 < ns.length := List.length_pos_iff.2 hne
  unfold layFields
  obtain ⟨x, hx⟩ : ∃ x, fs[fs.length - 1]? = some x := ⟨_, List.getElem?_eq_getElem (by omega)⟩
  obtain ⟨s, hl, hs, hn⟩ := h.get _ x hx
  rw [List.getLast?_eq_getElem?, hx]
  simp only
  rw [fitsInline_concat, inline_fieldLast, Bool.and_false, text_concat, text_fieldLast hs,
    List.dropLast_eq_take, text_layContinue (h.take _)]
  refine ⟨rfl, ?_⟩
  rw [← unlines_append, ← forestLines_snoc]
  congr 2
  rw [hlen] at hn ⊢
  have e := List.take_append_getElem (l := ns) (i := ns.length - 1) (by omega)
  rw [List.getElem?_eq_getElem (by omega)] at hn
  rw [Option.some.inj hn] at e
  rw [e, List.take_of_length_le (by omega)]

theorem goods_numbered {fs : List (List Column → Fragment)} {ss : List Shown} (i : Nat)
    (hlen : fs.length = ss.length)
    (h : ∀ (k : Nat) f s, fs[k]? = some f → ss[k]? = some s → Good f s) :
    Goods ((fs.zipIdx i).map fun p => (Nat.toDigits 10 p.2, p.1)) (enumerate i ss) := by
  induction fs generalizing ss i with
  | nil =>
    cases ss with
    | nil => exact .nil
    | cons _ _ => simp at hlen
  | cons f fs ih =>
    cases ss with
    | nil => simp at hlen
    | cons s ss =>
      simp only [List.zipIdx_cons, List.map_cons, enumerate]
      exact .cons (toDigits_plain i) (h 0 f s rfl rfl)
        (ih (i + 1) (by simpa using hlen) (fun k f s hf hs => h (k + 1) f s (by simpa using hf) (by simpa using hs)))

theorem good_tuple {fs : List (List Column → Fragment)} {ss : List Shown}
    (hlen : fs.length = ss.length)
    (h : ∀ (k : Nat) f s, fs[k]? = some f → ss[k]? = some s → Good f s) :
    Good (compileTuple fs)
      (if ss.isEmpty then .inline "()".toList else .block (enumerate 0 ss)) := by
  cases fs with
  | nil =>
    cases ss with
    | nil =>
      exact ⟨by decide, fun g => ⟨rfl, rfl⟩⟩
    | cons _ _ => simp at hlen
  | cons f fs =>
    cases ss with
    | nil => simp at hlen
    | cons s ss =>
      have := good_fields (goods_numbered 0 hlen h) (by simp [enumerate])
      have e : compileTuple (f :: fs) = fun g => layFields g (numbered (f :: fs)) := by
        funext g; simp [compileTuple]
      rw [e]
      exact this

theorem good_seq {fs : List (List Column → Fragment)} {ss : List Shown} (p : Nat)
    (hlen : fs.length = ss.length)
    (h : ∀ (k : Nat) f s, fs[k]? = some f → ss[k]? = some s → Good f s) :
    Good (compileSeq (some p) fs) (seqShown p ss) := by
  have hg : Goods (numbered fs) (enumerate 0 ss) := goods_numbered 0 hlen h
  have hl := hg.length
  have hnl : (numbered fs).length = fs.length := by simp [numbered]
  by_cases hne : fs = []
  · subst hne
    cases ss with
    | nil => exact ⟨by decide, fun g => ⟨rfl, rfl⟩⟩
    | cons _ _ => simp at hlen
  have hpos : 0 < fs.length := List.length_pos_iff.2 hne
  have hse : ss.isEmpty = false := by
    cases ss with
    | nil => simp at hlen; exact absurd hlen hne
    | cons _ _ => rfl
  have hfe : fs.isEmpty = false := by
    cases fs with
    | nil => exact absurd rfl hne
    | cons _ _ => rfl
  obtain ⟨x, hx⟩ : ∃ x, (numbered fs)[fs.length - 1]? = some x :=
    ⟨_, List.getElem?_eq_getElem (by omega)⟩
  obtain ⟨s, hxl, hs, hn⟩ := hg.get _ x hx
  unfold seqShown
  rw [hse]
  simp only [Bool.false_eq_true, if_false]
  generalize hns : enumerate 0 ss = ns at *
  have hnlen : ns.length = fs.length := by omega
  have hlast : ns.drop (ns.length - 1) = [entry x.1 s] := by
    rw [hnlen]
    rw [List.drop_eq_getElem_cons (by omega)]
    rw [List.getElem?_eq_getElem (by omega)] at hn
    rw [Option.some.inj hn, List.drop_of_length_le (by omega)]
  have hall : ns.take (ns.length - 1) ++ [entry x.1 s] = ns := by
    rw [← hlast, List.take_append_drop]
  have hpn := hg.plain
  refine ⟨?_, ?_, fun g => ?_⟩
  · unfold abridge
    split
    · intro e; rw [e] at hnlen; simp at hnlen; omega
    · simp
  · rw [plainNodes_iff] at hpn ⊢
    unfold abridge
    split
    · exact hpn
    · intro n hn
      simp only [List.mem_append, List.mem_cons] at hn
      rcases hn with hn | rfl | hn
      · exact hpn n (List.mem_of_mem_take hn)
      · trivial
      · exact hpn n (List.mem_of_mem_drop hn)
  · unfold compileSeq
    rw [hfe]
    simp only [Bool.false_eq_true, if_false, hx]
    by_cases hp : fs.length > p
    · simp only [hp, if_true]
      by_cases hq : p = fs.length - 1
      · simp only [hq, bne_self_eq_false, Bool.false_eq_true, if_false]
        rw [fitsInline_concat, inline_fieldLast, Bool.and_false, text_concat, text_fieldLast hs,
          text_layContinue (hg.take _)]
        refine ⟨rfl, ?_⟩
        rw [← unlines_append, ← forestLines_snoc, ← hnlen, hall, abridge, if_pos (by omega)]
      · have : (p != fs.length - 1) = true := by simpa using hq
        simp only [this, if_true]
        rw [fitsInline_concat, inline_fieldLast, Bool.and_false, text_concat, text_fieldLast hs,
          text_concat, text_skipped, text_layContinue (hg.take _)]
        refine ⟨rfl, ?_⟩
        rw [abridge, if_neg (by omega), hlast]
        rw [show ns.take p ++ Node.skipped :: [entry x.1 s]
          = (ns.take p ++ [Node.skipped]) ++ [entry x.1 s] by simp, forestLines_snoc]
        simp [continued, unlines_append]
    · simp only [hp, if_false, Bool.false_eq_true]
      rw [fitsInline_concat, inline_fieldLast, Bool.and_false, text_concat, text_fieldLast hs,
        text_layContinue (hg.take _)]
      refine ⟨rfl, ?_⟩
      rw [← unlines_append, ← forestLines_snoc, ← hnlen, hall, abridge, if_pos (by omega)]

/-! ### Records, variants -/

theorem flagOf_eq (v : Value) : isBoolean v = (flagOf v).isSome
    ∧ isSet v = (flagOf v == some true) := by
  fun_induction flagOf v with
  | case1 b => cases b <;> exact ⟨rfl, rfl⟩
  | case2 _ _ ih => simpa [isBoolean, isSet, Value.coerceMapped] using ih
  | case3 _ _ ih => simpa [isBoolean, isSet, Value.coerceMapped] using ih
  | case4 _ ih => simpa [isBoolean, isSet, Value.coerceMapped] using ih
  | case5 v h1 h2 h3 h4 =>
    cases v <;> simp_all [isBoolean, isSet, Value.coerceMapped]

theorem hidden_eq (l : String) : (!hidden l) = Visible l := by
  unfold hidden Visible
  congr 1
  generalize l.toList = cs
  rw [show "__".toList = ['_', '_'] from rfl]
  match cs with
  | [] => rfl
  | [c] => simp [List.isPrefixOf]
  | c :: d :: cs =>
    simp only [List.take_succ_cons, List.take_zero, List.isPrefixOf, Bool.and_true]
    rw [show ([c, d] == ['_', '_']) = (c == '_' && (d == '_' && true)) from rfl, Bool.and_true,
      Bool.beq_comm, Bool.beq_comm (a := d)]

theorem isAtomic_eq (v : Value) : isAtomic v = !Compound v := by
  fun_induction isAtomic v <;> simp_all [Compound, SeqKind.len]
  all_goals first
    | (rename_i l; cases l <;> simp; done)
    | (rename_i n _; cases n <;> simp; done)
    | (rw [← decide_not]; exact decide_eq_decide.2 (by omega))

theorem between_plain {sep : List Char} (hs : '\n' ∉ sep) : ∀ ts : List (List Char),
    (∀ t ∈ ts, '\n' ∉ t) → '\n' ∉ between sep ts
  | [], _ => by simp [between]
  | [t], h => by simpa [between] using h
  | t :: u :: ts, h => by
    have := between_plain hs (u :: ts) (fun x hx => h x (by simp [List.mem_cons.1 hx]))
    simp only [between, List.mem_append, not_or]
    exact ⟨⟨h t (by simp), hs⟩, this⟩

/-- the fields of a record show what they should -/
inductive GoodFields : List (String × Value × (List Column → Fragment)) →
    List (String × Option Bool × Shown) → Prop where
  | nil : GoodFields [] []
  | cons {l v f s fs ss} : '\n' ∉ l.toList → Good f s → GoodFields fs ss →
      GoodFields ((l, v, f) :: fs) ((l, flagOf v, s) :: ss)

theorem GoodFields.visible {fs ss} (h : GoodFields fs ss) :
    GoodFields (fs.filter fun f => Visible f.1) (ss.filter fun f => Visible f.1) := by
  induction h with
  | nil => exact .nil
  | cons hl hf _ ih =>
    simp only [List.filter_cons]
    split
    · exact .cons hl hf ih
    · exact ih

theorem good_record {fs : List (String × Value × (List Column → Fragment))}
    {ss : List (String × Option Bool × Shown)} (h : GoodFields fs ss) :
    Good (compileRecord fs) (recordShown (ss.filter fun f => Visible f.1)) := by
  have hv := h.visible
  have e1 : (if fs.any (fun f => hidden f.1) then fs.filter (fun f => !hidden f.1) else fs)
      = fs.filter (fun f => Visible f.1) := by
    simp only [hidden_eq]
    split
    · rfl
    · rename_i hn
      symm
      rw [List.filter_eq_self]
      intro f hf
      rw [← hidden_eq]
      simp only [List.any_eq_true, not_exists, not_and, Bool.not_eq_true] at hn
      simp [hn f hf]
  have e2 : compileRecord fs = fun g =>
      let vs := fs.filter (fun f => Visible f.1)
      if vs.isEmpty then .string "{}".toList
      else if vs.all fun f => isBoolean f.2.1 then compileBoolFlags (vs.map fun f => (f.1, f.2.1))
      else layFields g (vs.map fun f => (f.1.toList, f.2.2)) := by
    funext g
    simp only [compileRecord, e1]
  rw [e2]
  generalize fs.filter (fun f => Visible f.1) = vs at hv
  generalize ss.filter (fun f => Visible f.1) = ws at hv
  have hemp : vs.isEmpty = ws.isEmpty := by cases hv <;> rfl
  have hall : vs.all (fun f => isBoolean f.2.1) = ws.all (fun f => f.2.1.isSome) := by
    clear hemp
    induction hv with
    | nil => rfl
    | cons _ _ _ ih => rw [List.all_cons, List.all_cons, ih, (flagOf_eq _).1]
  have hset : ((vs.map fun f => (f.1, f.2.1)).filter fun f => isSet f.2).map (fun f => f.1.toList)
      = (ws.filter fun f => f.2.1 == some true).map fun f => f.1.toList := by
    clear hemp hall
    induction hv with
    | nil => rfl
    | cons _ _ _ ih =>
      rw [List.map_cons, List.filter_cons, List.filter_cons]
      simp only [(flagOf_eq _).2] at ih ⊢
      split <;> simp [ih]
  have hplain : ∀ f ∈ ws, '\n' ∉ f.1.toList := by
    clear hemp hall hset
    induction hv with
    | nil => simp
    | cons hl _ _ ih =>
      intro f hf
      rcases List.mem_cons.1 hf with rfl | hf
      · exact hl
      · exact ih f hf
  have hgoods : Goods (vs.map fun f => (f.1.toList, f.2.2))
      (ws.map fun f => entry f.1.toList f.2.2) := by
    clear hemp hall hset hplain
    induction hv with
    | nil => exact .nil
    | cons hl hf _ ih => exact .cons hl hf ih
  unfold recordShown
  simp only [hemp, hall]
  cases he : ws.isEmpty with
  | true => simp only [if_true]; exact ⟨by decide, fun g => ⟨rfl, rfl⟩⟩
  | false =>
    cases ha : ws.all (fun f => f.2.1.isSome) with
    | true =>
      simp only [Bool.false_eq_true, if_false, if_true]
      have hb : '\n' ∉ between ['|'] ((ws.filter fun f => f.2.1 == some true).map
          fun f => f.1.toList) := by
        apply between_plain (by decide)
        intro t ht
        obtain ⟨f, hf, rfl⟩ := List.mem_map.1 ht
        exact hplain f (List.mem_filter.1 hf).1
      refine ⟨?_, fun g => ⟨?_, ?_⟩⟩
      · simp only [List.mem_append, not_or]
        exact ⟨⟨by decide, hb⟩, by decide⟩
      · rw [compileBoolFlags, delimit, fitsInline_concat, fitsInline_concat, fitsInline_concat]
        simp only [fitsInline, Bool.and_eq_true]
        refine ⟨by decide, ⟨by decide, ?_⟩, by decide⟩
        have hi : allInline (((vs.map fun f => (f.1, f.2.1)).filter fun f => isSet f.2).map
            fun f => Fragment.string f.1.toList) = true := by
          have hp : ∀ t ∈ ((vs.map fun f => (f.1, f.2.1)).filter fun f => isSet f.2).map
              (fun f => f.1.toList), '\n' ∉ t := by
            rw [hset]
            intro t ht
            obtain ⟨f, hf, rfl⟩ := List.mem_map.1 ht
            exact hplain f (List.mem_filter.1 hf).1
          generalize (vs.map fun f => (f.1, f.2.1)).filter (fun f => isSet f.2) = l at hp
          induction l with
          | nil => rfl
          | cons x xs ih =>
            simp only [List.map_cons, allInline, fitsInline, Bool.and_eq_true, Bool.not_eq_true']
            refine ⟨?_, ih (fun t ht => hp t (by
              rw [List.map_cons]; exact List.mem_cons_of_mem _ ht))⟩
            have := hp x.1.toList (by simp)
            simpa using this
        generalize ((vs.map fun f => (f.1, f.2.1)).filter fun f => isSet f.2).map
            (fun f => Fragment.string f.1.toList) = l at hi
        unfold seq
        split
        · rfl
        · split
          · simpa [fitsInline] using hi
          · simp [isVacuous, fitsInline, hi]
      · rw [compileBoolFlags, delimit, text_concat, text_concat, text_concat, text_seq, List.map_map]
        rw [show (text ∘ fun f : String × Value => Fragment.string f.1.toList)
          = fun f => f.1.toList from rfl, hset]
        simp [text]
    | false =>
      simp only [Bool.false_eq_true, if_false]
      refine good_fields hgoods ?_
      intro e
      rw [List.map_eq_nil_iff] at e
      subst e
      simp at he

theorem good_wrapped {f : List Column → Fragment} {s : Shown} {label : List Char}
    {compound : Bool} (hl : '\n' ∉ label) (h : Good f s)
    (hc : compound = false → ∃ t, s = .inline t) :
    Good (compileVariant label (!compound) f) (wrapped label compound s) := by
  have hb : Good (fun g => fieldLast g label f) (.block [entry label s]) := by
    refine ⟨by simp, ⟨plain_entry h hl, trivial⟩, fun g => ⟨inline_fieldLast g label f, ?_⟩⟩
    rw [text_fieldLast h]
    simp [forestLines]
  cases compound with
  | true =>
    have e : compileVariant label (!true) f = fun g => fieldLast g label f := by
      funext g; simp [compileVariant]
    rw [e]
    simpa [wrapped] using hb
  | false =>
    obtain ⟨t, rfl⟩ := hc rfl
    refine ⟨?_, fun g => ?_⟩
    · have := h.1
      simp [hl, this]
    · have h2 := h.2 g
      simp only [compileVariant, Bool.not_false, if_true, fitsInline, fitsInline_concat, text,
        text_concat, h2]
      refine ⟨?_, by simp⟩
      simp [hl]

theorem inline_of_not_compound (t : Texts) (p : Nat) : ∀ v : Value, Compound v = false →
    ∃ s, outline t p v = .inline s
  | .bool _, _ => ⟨_, by simp only [outline]; rfl⟩
  | .num _ _, _ => ⟨_, by simp only [outline]; rfl⟩
  | .numeric _, _ => ⟨_, by simp only [outline]; rfl⟩
  | .char _, _ => ⟨_, by simp only [outline]; rfl⟩
  | .view _, _ => ⟨_, by simp only [outline]; rfl⟩
  | .phantom, _ => ⟨_, by simp only [outline]; rfl⟩
  | .enumFromTo _ _, _ => ⟨_, by simp only [outline]; rfl⟩
  | .optNone, _ => ⟨_, by simp only [outline]; rfl⟩
  | .permitOk _, _ => ⟨_, by simp only [outline]; rfl⟩
  | .permitErr _, _ => ⟨_, by simp only [outline]; rfl⟩
  | .permitErrNone, _ => ⟨_, by simp only [outline]; rfl⟩
  | .tuple vs, h => by
    cases vs with
    | nil => exact ⟨_, rfl⟩
    | cons _ _ => simp [Compound] at h
  | .record fs, h => by
    cases fs with
    | nil => exact ⟨_, rfl⟩
    | cons _ _ => simp [Compound] at h
  | .seq (.strict l), h => by
    cases l with
    | nil => exact ⟨_, rfl⟩
    | cons _ _ => simp [Compound, SeqKind.len] at h
  | .seq (.dup n v), h => by
    cases n with
    | zero => exact ⟨_, rfl⟩
    | succ _ => simp [Compound, SeqKind.len] at h
  | .mapped _ v, h => by
    simp only [Compound] at h; simpa only [outline] using inline_of_not_compound t p v h
  | .branch _ v, h => by
    simp only [Compound] at h; simpa only [outline] using inline_of_not_compound t p v h
  | .variant l v, h => by
    simp only [Compound] at h
    obtain ⟨s, hs⟩ := inline_of_not_compound t p v h
    exact ⟨_, by simp only [outline, hs, h, wrapped]; rfl⟩
  | .optSome v, h => by
    simp only [Compound] at h
    obtain ⟨s, hs⟩ := inline_of_not_compound t p v h
    exact ⟨_, by simp only [outline, hs, h, wrapped]; rfl⟩

theorem good_atom {s : List Char} (h : '\n' ∉ s) : Good (fun _ => .atom s) (.inline s) :=
  ⟨h, fun _ => ⟨rfl, rfl⟩⟩

theorem good_string {s : List Char} (h : '\n' ∉ s) : Good (fun _ => .string s) (.inline s) :=
  ⟨h, fun _ => ⟨by simpa [fitsInline] using h, rfl⟩⟩

mutual
theorem good_compile (t : Texts) (ht : t.Plain) (p : Nat) : ∀ v : Value, PlainLabels v →
    Good (compile t (some p) v) (outline t p v)
  | .bool true, _ => by simp only [compile, outline]; exact good_string (by decide)
  | .bool false, _ => by simp only [compile, outline]; exact good_string (by decide)
  | .num _ n, _ => by simp only [compile, outline]; exact good_atom (toDigits_plain _)
  | .numeric n, _ => by simp only [compile, outline]; exact good_atom (ht.numeric n)
  | .char c, _ => by simp only [compile, outline]; exact good_atom (ht.char c)
  | .view o, _ => by
    simp only [compile, outline]
    refine good_string ?_
    simp only [List.mem_append, not_or]
    exact ⟨⟨by decide, toDigits_plain o⟩, by decide⟩
  | .phantom, _ => by
    simp only [compile, outline]
    exact ⟨by decide, fun _ => ⟨rfl, rfl⟩⟩
  | .enumFromTo a b, _ => by
    simp only [compile, outline]
    refine ⟨?_, fun _ => ⟨?_, ?_⟩⟩
    · simp only [List.mem_append, not_or]
      exact ⟨⟨⟨⟨by decide, toDigits_plain _⟩, by decide⟩, toDigits_plain _⟩, by decide⟩
    · rfl
    · simp [intervene, isVacuous, delimit, text_concat, text]
  | .optNone, _ => by simp only [compile, outline]; exact good_string (by decide)
  | .permitOk v, h => by
    simp only [compile, outline]; exact good_string (ht.display _ (by simpa [PlainLabels] using h))
  | .permitErr v, h => by
    simp only [compile, outline]; exact good_string (ht.display _ (by simpa [PlainLabels] using h))
  | .permitErrNone, h => by
    simp only [compile, outline]; exact good_string (ht.display _ h)
  | .mapped _ v, h => by
    simp only [PlainLabels] at h
    simpa only [compile, outline] using good_compile t ht p v h.2
  | .branch _ v, h => by
    simp only [PlainLabels] at h
    simpa only [compile, outline] using good_compile t ht p v h
  | .variant l v, h => by
    simp only [PlainLabels] at h
    simp only [compile, outline, isAtomic_eq]
    exact good_wrapped h.1 (good_compile t ht p v h.2) (inline_of_not_compound t p v)
  | .optSome v, h => by
    simp only [PlainLabels] at h
    simp only [compile, outline, isAtomic_eq]
    exact good_wrapped (by decide) (good_compile t ht p v h) (inline_of_not_compound t p v)
  | .tuple vs, h => by
    simp only [PlainLabels] at h
    have hg := good_compileAll t ht p vs h
    have := good_tuple hg.1 hg.2
    simp only [compile, outline]
    cases vs with
    | nil => exact this
    | cons v vs => exact this
  | .seq (.strict l), h => by
    simp only [PlainLabels] at h
    have hg := good_compileAll t ht p l h
    simpa only [compile, outline] using good_seq p hg.1 hg.2
  | .seq (.dup n v), h => by
    simp only [PlainLabels] at h
    have hg := good_compile t ht p v h
    simp only [compile, outline]
    refine good_seq p (by simp) (fun k f s hf hs => ?_)
    rw [List.getElem?_replicate] at hf hs
    split at hf
    · rename_i hk
      rw [if_pos hk] at hs
      cases hf; cases hs
      exact hg
    · cases hf
  | .record fs, h => by
    simp only [PlainLabels] at h
    simpa only [compile, outline] using good_record (good_compileFields t ht p fs h)
theorem good_compileAll (t : Texts) (ht : t.Plain) (p : Nat) : ∀ vs : List Value,
    PlainLabelsAll vs →
    (compileAll t (some p) vs).length = (outlines t p vs).length
    ∧ ∀ (k : Nat) f s, (compileAll t (some p) vs)[k]? = some f → (outlines t p vs)[k]? = some s →
      Good f s
  | [], _ => by simp [compileAll, outlines]
  | v :: vs, h => by
    simp only [PlainLabelsAll] at h
    have h1 := good_compile t ht p v h.1
    have h2 := good_compileAll t ht p vs h.2
    refine ⟨by simp [compileAll, outlines, h2.1], fun k f s hf hs => ?_⟩
    cases k with
    | zero =>
      simp only [compileAll, outlines, List.getElem?_cons_zero, Option.some.injEq] at hf hs
      subst hf; subst hs
      exact h1
    | succ k =>
      simp only [compileAll, outlines, List.getElem?_cons_succ] at hf hs
      exact h2.2 k f s hf hs
theorem good_compileFields (t : Texts) (ht : t.Plain) (p : Nat) : ∀ fs : List (String × Value),
    PlainLabelsFields fs → GoodFields (compileFields t (some p) fs) (outlineFields t p fs)
  | [], _ => .nil
  | (l, v) :: fs, h => by
    simp only [PlainLabelsFields] at h
    simp only [compileFields, outlineFields]
    exact .cons h.1 (good_compile t ht p v h.2.1) (good_compileFields t ht p fs h.2.2)
end

end Doodle.Out
