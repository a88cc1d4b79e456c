import Verif.Lemmas.Flat
import Verif.Props.ByteSet

/-! Property C69 (flat listings of decoded values). -/

namespace Doodle
namespace Flat

open Grammar Record

/-- Listing a decoded value in the format it was decoded with does not panic. -/
theorem C69_total_partial (m : Module) (st : Style) (rej : Format → Scope Format → ReadCtxt → Prop)
    (hm : ∀ it ∈ m.items, Listable st it.format) {f : Format} {s : Scope Format} {c c' : ReadCtxt}
    {v : Value} {k : Nat} (hf : Listable st f) (h : Parses m rej f s c v c' k) :
    ∃ n, ∀ fuel, n ≤ fuel → ∃ ls, writeFlat m st fuel v f = .ok ls :=
  (lists_of_parses hm h).1 hf

/-- A listing has one line for each titled item, in order, and none for what is inside titled items. -/
theorem C69_lines {m : Module} {st : Style} {v : Value} {f : Format} {ls : List Nat}
    (h : Lines m st v f ls) : Prints m st v f ls :=
  h.prints

/-- So what is printed is determined by the value. -/
theorem C69_lines_unique {m : Module} {st : Style} {v : Value} {f : Format} {a b : List Nat}
    (ha : Lines m st v f a) (hb : Prints m st v f b) : a = b := by
  obtain ⟨n, hn⟩ := ha.prints
  obtain ⟨k, hk⟩ := hb
  have h1 := hn (max n k) (by omega)
  rw [hk (max n k) (by omega)] at h1
  cases h1
  rfl

/-- A format is accepted only if all its bytes are in titled items (apart from bytes read to make sure
that something is not there). -/
theorem C69_covered {m : Module} {st : Style} {fuel : Nat} {f : Format}
    (h : checkCovered m st fuel f = .ok ()) : ¬ Exposed m st f :=
  fun he => exposed_not_ok he fuel h

/-- A format is refused only if one of its bytes is not in a titled item. -/
theorem C69_refused {m : Module} {st : Style} {fuel : Nat} {f : Format}
    (h : checkCovered m st fuel f = .err ()) : Exposed m st f :=
  covered_err fuel f h

/-! Examples: item 0 has a title and is a byte; item 1 has none and is a sequence of items 0. -/

namespace Ex
def mod : Module := ⟨[⟨[], [], .byte .full⟩, ⟨[], [], .repeat_ (.itemVar 0 [] [])⟩]⟩
def sty : Style := ⟨fun n => n == 0, fun f => match f with | .letFormat .. => true | _ => false⟩
/-- a record of a length that is not kept, and item 1 -/
def rec_ : Format :=
  .hint (.letFormat (.byte .full) "len" (.letFormat (.itemVar 1 [] []) "body"
    (.compute (.record [("body", .var "body")]))))
def fields : List Field := [(some ("len", false), .byte .full), (some ("body", true), .itemVar 1 [] [])]
/-- a titled item, behind a function -/
def behind : Format := .map (.itemVar 0 [] []) (.lambda "x" (.var "x"))
def anywhere : Format → Scope Format → ReadCtxt → Prop := fun _ _ _ => True
end Ex
open Ex

theorem shaped_ex : Shaped [] fields
    (.letFormat (.byte .full) "len" (.letFormat (.itemVar 1 [] []) "body"
      (.compute (.record [("body", .var "body")])))) :=
  .temporary (.permanent (.done (by simp)))

theorem noRebind_ex : NoRebind (fields.map (·.1)) := by simp [fields, NoRebind]
theorem noClash_ex : NoClash (fields.map (·.1)) := by
  intro x hx hy
  simp only [fields, List.map_cons, List.map_nil, List.mem_cons, Option.some.injEq, Prod.mk.injEq,
    List.not_mem_nil, or_false] at hx hy
  rcases hx with ⟨_, h⟩ | ⟨rfl, _⟩
  · cases h
  · rcases hy with ⟨h, _⟩ | ⟨_, h⟩
    · exact absurd h (by decide)
    · cases h

theorem items_ex : ∀ it ∈ mod.items, Listable sty it.format := by
  intro it hi
  simp only [mod, List.mem_cons, List.not_mem_nil, or_false] at hi
  rcases hi with rfl | rfl <;> simp [Listable]

theorem parses_item {rej} {s : Scope Format} {l : List UInt8} {i : Nat} {b : UInt8} (h : l[i]? = some b) :
    Parses mod rej (.itemVar 0 [] []) s ⟨l, i⟩ (.u8 b) ⟨l, i + 1⟩ 0 :=
  .itemVar (it := ⟨[], [], .byte .full⟩) rfl .nil .nil (.byte h (ByteSet.C01_contains_full _))

theorem parses_ex : Parses mod anywhere rec_ .empty ⟨[2, 7, 9], 0⟩
    (.record [("body", .seq (.strict [.u8 7, .u8 9]))]) ⟨[2, 7, 9], 3⟩ 0 :=
  .hint (.letFormat (.byte (b := 2) rfl (ByteSet.C01_contains_full _))
    (.letFormat (.itemVar (it := ⟨[], [], .repeat_ (.itemVar 0 [] [])⟩) rfl .nil .nil
      (.repeat_ (.mcons (parses_item rfl) (.mcons (parses_item rfl) .mnil))))
      (.compute (by rfl))))

/-- a case for `C69_total_partial` -/
example : Listable sty rec_ := by
  simp only [rec_, Listable, and_true]
  exact fun _ => ⟨fields, shaped_ex, noRebind_ex, noClash_ex⟩

/-- a case for `C69_lines`: two items, two lines -/
example : Lines mod sty (.record [("body", .seq (.strict [.u8 7, .u8 9]))]) rec_ [0, 0] :=
  .record (by rfl) shaped_ex noRebind_ex noClash_ex
    (.cons (g := .itemVar 1 [] []) (a := [0, 0]) (b := []) (by simp [fields])
      (.untitled (it := ⟨[], [], .repeat_ (.itemVar 0 [] [])⟩) rfl rfl
        (.repeats rfl (.cons (a := [0]) (b := [0]) (.titled rfl)
          (.cons (a := [0]) (b := []) (.titled rfl) .nil)))) .nil)

/-- a case for `C69_covered`, and one for `C69_refused`: the length is not in a titled item -/
example : checkCovered mod sty 1 (.itemVar 1 [] []) = .ok () ∧ checkCovered mod sty 1 rec_ = .err () := by
  constructor
  · simp [checkCovered, sty, mod]
  · simp only [rec_, checkCovered]; rfl

/-- The condition on what is permitted to fail is needed: a value that was permitted to fail and did not
is marked, and the listing does not expect the mark. -/
theorem C69_permit_refuted :
    ∃ (f : Format) (v : Value) (c c' : ReadCtxt),
      Parses mod anywhere (.permit f (.bool true)) .empty c v c' 0 ∧ Listable sty f ∧
      ∀ fuel, writeFlat mod sty (fuel + 2) v (.permit f (.bool true)) = .panic :=
  ⟨.tuple [.itemVar 0 [] []], .permitOk (.tuple [.u8 7]), ⟨[7], 0⟩, ⟨[7], 1⟩,
    .permit (.tuple (.fcons (parses_item rfl) .fnil)), by simp [Listable, ListableAll],
    fun fuel => by simp [writeFlat]⟩

/-- The condition on what is negated is needed: its value is an empty tuple, which the listing takes for
a value of the negated format. -/
theorem C69_negated_refuted (rej : Format → Scope Format → ReadCtxt → Prop) (c : ReadCtxt)
    (hr : rej (.variant "end" (.itemVar 0 [] [])) .empty c) :
    ∃ v, Parses mod rej (.peekNot (.variant "end" (.itemVar 0 [] []))) .empty c v c 0 ∧
      Listable sty (.variant "end" (.itemVar 0 [] [])) ∧
      ∀ fuel, writeFlat mod sty (fuel + 2) v (.peekNot (.variant "end" (.itemVar 0 [] []))) = .panic :=
  ⟨.tuple [], .peekNot hr, by simp [Listable], fun fuel => by simp [writeFlat]⟩

example : anywhere (.variant "end" (.itemVar 0 [] [])) .empty ⟨[], 0⟩ := trivial

/-- A format being accepted does not mean that what is read is listed: titled items are accepted behind
functions and conditions, and not listed there. -/
theorem C69_silent_refuted :
    ∃ (v : Value) (c c' : ReadCtxt), checkCovered mod sty 0 behind = .ok () ∧
      Parses mod anywhere behind .empty c v c' 0 ∧ c'.offset = c.offset + 1 ∧
      ∀ fuel, writeFlat mod sty (fuel + 1) v behind = .ok [] :=
  ⟨.mapped (.u8 7) (.u8 7), ⟨[7], 0⟩, ⟨[7], 1⟩, by simp [behind, checkCovered, sty],
    .map (parses_item rfl) (by rfl), rfl, fun fuel => by simp [behind, writeFlat]⟩

end Flat
end Doodle
