import Verif.Model.GzipMember
import Verif.Spec.GzipMember
import Verif.Props.GzipName

/-! Members of gzip files: what their derivations are. -/

namespace Doodle
namespace GzipMember

open Grammar Helper

variable {m : Module} {rej : Format → Scope Format → ReadCtxt → Prop}

theorem part_iff {e : Expr} {f : Format} {s : Scope Format} {b : Bool} {P : ReadCtxt → Value → ReadCtxt → Nat → Prop}
    (he : DenotesBool e s b) (hP : ∀ c v c' k, Parses m rej f s c v c' k ↔ P c v c' k) {c v c' k} :
    Parses m rej (.maybe e f) s c v c' k ↔ Part b P c v c' k := by
  constructor
  · intro h
    cases h with
    | maybe_some h1 h2 =>
      cases he.symm.trans h1
      exact ⟨_, (hP ..).1 h2, rfl⟩
    | maybe_none h1 =>
      cases he.symm.trans h1
      exact ⟨rfl, rfl, rfl⟩
  · intro h
    cases b with
    | true =>
      obtain ⟨x, h1, rfl⟩ := h
      exact .maybe_some he ((hP ..).2 h1)
    | false =>
      obtain ⟨rfl, rfl, rfl⟩ := h
      exact .maybe_none he

theorem call_iff {l : Nat} {s s' : Scope Format} {c v c' k} : Parses m rej (.itemVar l [] []) s c v c' k ↔ Parses m rej (.itemVar l [] []) s' c v c' k := by
  have : ∀ {s s' : Scope Format}, Parses m rej (.itemVar l [] []) s c v c' k → Parses m rej (.itemVar l [] []) s' c v c' k := by
    intro s s' h
    cases h with
    | itemVar h1 h2 h3 h4 =>
      rw [List.zip_nil_right] at h2 h3
      cases h2
      cases h3
      exact .itemVar h1 (by rw [List.zip_nil_right]; exact .nil) (by rw [List.zip_nil_right]; exact .nil) h4
  exact ⟨this, this⟩

theorem data_iff {l : Nat} {s s' : Scope Format} {c v c' k} : Parses m rej (.bits (.itemVar l [] [])) s c v c' k ↔
    Parses m rej (.bits (.itemVar l [] [])) s' c v c' k := by
  have : ∀ {s s' : Scope Format}, Parses m rej (.bits (.itemVar l [] [])) s c v c' k → Parses m rej (.bits (.itemVar l [] [])) s' c v c' k := by
    intro s s' h
    cases h with
    | bits h1 h2 => exact .bits h1 (call_iff.1 h2)
  exact ⟨this, this⟩

/-- the record of a member, written out -/
theorem single_eq (deflate l : Nat) : single deflate l = .hint (.letFormat (.itemVar (l + 1) [] []) "header"
    (.letFormat (.maybe (has "fextra") (.itemVar (l + 5) [] [])) "fextra" (.letFormat (.maybe (has "fname") (.itemVar (l + 3) [] [])) "fname"
      (.letFormat (.maybe (has "fcomment") (.itemVar (l + 6) [] [])) "fcomment" (.letFormat (.maybe (has "fhcrc") (.itemVar (l + 7) [] [])) "fhcrc"
        (.letFormat (.bits (.itemVar deflate [] [])) "data" (.letFormat (.itemVar (l + 2) [] []) "footer"
          (.compute (.record [("header", .var "header"), ("fextra", .var "fextra"), ("fname", .var "fname"), ("fcomment", .var "fcomment"),
            ("fhcrc", .var "fhcrc"), ("data", .var "data"), ("footer", .var "footer")]))))))))) := rfl

theorem all_single (s : Scope Format) (a b c d e f g : Value) :
    Denotes (.record [("header", .var "header"), ("fextra", .var "fextra"), ("fname", .var "fname"), ("fcomment", .var "fcomment"),
            ("fhcrc", .var "fhcrc"), ("data", .var "data"), ("footer", .var "footer")])
      (.single "footer" g (.single "data" f (.single "fhcrc" e (.single "fcomment" d (.single "fname" c (.single "fextra" b (.single "header" a s)))))))
      (.record [("header", a), ("fextra", b), ("fname", c), ("fcomment", d), ("fhcrc", e), ("data", f), ("footer", g)]) := rfl

theorem has_extra (h : GzipHeader.Header) (s : Scope Format) :
    DenotesBool (has "fextra") (.single "header" h.value s) (h.flags.toNat.testBit 2) := rfl

theorem has_name (h : GzipHeader.Header) (s : Scope Format) (a : Value) :
    DenotesBool (has "fname") (.single "fextra" a (.single "header" h.value s)) (h.flags.toNat.testBit 3) := rfl

theorem has_comment (h : GzipHeader.Header) (s : Scope Format) (a b : Value) :
    DenotesBool (has "fcomment") (.single "fname" b (.single "fextra" a (.single "header" h.value s))) (h.flags.toNat.testBit 4) := rfl

theorem has_sum (h : GzipHeader.Header) (s : Scope Format) (a b c : Value) :
    DenotesBool (has "fhcrc") (.single "fcomment" c (.single "fname" b (.single "fextra" a (.single "header" h.value s)))) (h.flags.toNat.testBit 1) := rfl

theorem between_iff {f : Format} {L : Scope Format → List UInt8 → Value → Prop} (h : Grammar.Reads m f L) {s c v c' k} :
    Parses m rej f s c v c' k ↔ ∃ u, L s u v ∧ Between c u c' ∧ k = 0 := by
  rw [h rej s c v c' k]
  constructor
  · rintro ⟨u, rest, h1, h2, h3, h4⟩; exact ⟨u, h2, ⟨⟨rest, h1⟩, h3⟩, h4⟩
  · rintro ⟨u, h2, ⟨⟨rest, h1⟩, h3⟩, h4⟩; exact ⟨u, rest, h1, h2, h3, h4⟩

theorem reads_extra {l : Nat} (h : m.items[l]? = some ⟨[], [], Gzip.subfield⟩) : Grammar.Reads m (Gzip.extra l) fun _ w v =>
    ∃ (x : Gzip.Extra) (left : List UInt8), x.size.length = 2 ∧ (∀ y ∈ x.subs, y.Valid) ∧
      littleEnd x.size = (x.subs.flatMap Gzip.Sub.encode ++ left).length ∧ w = x.encode ++ left ∧ v = x.value := by
  rw [Gzip.extra_eq]
  refine (reads_hint (reads_letFormat_at (fixed_word .b16 false).reads (fun s u z h => by rintro rfl; cases h.1)
    (readsAt_letFormat (readsAt_slice (reads_repeat (reads_item h Gzip.reads_sub))) reads_compute))).congr fun s w v => ?_
  constructor
  · rintro ⟨size, _, _, rfl, ⟨hs, rfl⟩, _, _, _, rfl, ⟨u, left, rfl, hn, vs, hp, rfl⟩, rfl, hv⟩
    replace hs : size.length = 2 := hs
    obtain ⟨subs, a1, rfl, rfl⟩ := pieces_made.1 hp
    cases (Gzip.all_extra ..).symm.trans hv
    exact ⟨⟨size, subs⟩, left, hs, a1, ((Gzip.xlen_var _ _ _ hs).1 hn).symm, by simp [Gzip.Extra.encode], rfl⟩
  · rintro ⟨⟨size, subs⟩, left, hs, a1, hn, rfl, rfl⟩
    exact ⟨size, subs.flatMap Gzip.Sub.encode ++ left, _, by simp [Gzip.Extra.encode], ⟨hs, rfl⟩, subs.flatMap Gzip.Sub.encode ++ left, [], _,
      (List.append_nil _).symm, ⟨_, left, rfl, (Gzip.xlen_var _ _ _ hs).2 hn.symm, _, pieces_made.2 ⟨subs, a1, rfl, rfl⟩, rfl⟩, rfl, Gzip.all_extra ..⟩

section
variable {deflate l : Nat} (h0 : m.items[l]? = some ⟨[], [], GzipHeader.flagsFormat⟩) (h1 : m.items[l + 1]? = some ⟨[], [], GzipHeader.header l⟩)
  (h2 : m.items[l + 2]? = some ⟨[], [], GzipHeader.footer⟩) (h3 : m.items[l + 3]? = some ⟨[], [], GzipName.fname⟩)
  (h4 : m.items[l + 4]? = some ⟨[], [], Gzip.subfield⟩) (h5 : m.items[l + 5]? = some ⟨[], [], Gzip.extra (l + 4)⟩)
  (h6 : m.items[l + 6]? = some ⟨[], [], GzipName.fcomment⟩) (h7 : m.items[l + 7]? = some ⟨[], [], GzipName.fhcrc⟩)
include h0 h1 h2 h3 h4 h5 h6 h7

theorem name_iff {s c v c' k} : Parses m rej (.itemVar (l + 3) [] []) s c v c' k ↔ Name c v c' k := by
  rw [between_iff (reads_item h3 GzipName.reads_asciiz)]
  constructor
  · rintro ⟨_, ⟨u, a, rfl, rfl⟩, b, rfl⟩; exact ⟨u, a, b, rfl, rfl⟩
  · rintro ⟨u, a, b, rfl, rfl⟩; exact ⟨_, ⟨u, a, rfl, rfl⟩, b, rfl⟩

theorem extra_iff {s c v c' k} : Parses m rej (.itemVar (l + 5) [] []) s c v c' k ↔ ExtraField c v c' k := by
  rw [between_iff (reads_item h5 (reads_extra h4))]
  constructor
  · rintro ⟨_, ⟨x, left, a1, a2, a3, rfl, rfl⟩, b, rfl⟩; exact ⟨x, left, a1, a2, a3, b, rfl, rfl⟩
  · rintro ⟨x, left, a1, a2, a3, b, rfl, rfl⟩; exact ⟨_, ⟨x, left, a1, a2, a3, rfl, rfl⟩, b, rfl⟩

theorem comment_iff {s c v c' k} : Parses m rej (.itemVar (l + 6) [] []) s c v c' k ↔ Comment c v c' k := by
  rw [between_iff (reads_item h6 GzipName.reads_fcomment)]
  constructor
  · rintro ⟨_, ⟨u, a, rfl, rfl⟩, b, rfl⟩; exact ⟨u, a, b, rfl, rfl⟩
  · rintro ⟨u, a, b, rfl, rfl⟩; exact ⟨_, ⟨u, a, rfl, rfl⟩, b, rfl⟩

theorem sum_iff {s c v c' k} : Parses m rej (.itemVar (l + 7) [] []) s c v c' k ↔ Checksum c v c' k := by
  rw [between_iff (reads_item h7 GzipName.reads_fhcrc)]
  constructor
  · rintro ⟨u, ⟨a, rfl⟩, b, rfl⟩; exact ⟨u, a, b, rfl, rfl⟩
  · rintro ⟨u, a, b, rfl, rfl⟩; exact ⟨_, ⟨a, rfl⟩, b, rfl⟩

/-- what a format describes where the scope does not matter -/
abbrev At (m : Module) (rej : Format → Scope Format → ReadCtxt → Prop) (f : Format) : ReadCtxt → Value → ReadCtxt → Nat → Prop :=
  fun c v c' k => Parses m rej f .empty c v c' k

omit h0 h1 h2 h3 h4 h5 h6 h7 in
theorem part_zero {b : Bool} {P : ReadCtxt → Value → ReadCtxt → Nat → Prop} (hP : ∀ {c v c' k}, P c v c' k → k = 0) {c v c' k}
    (h : Part b P c v c' k) : k = 0 := by
  cases b with
  | true => obtain ⟨x, h1, _⟩ := h; exact hP h1
  | false => exact h.2.2

theorem member_iff {s c v c' k} : Parses m rej (single deflate l) s c v c' k ↔
    Member (At m rej (.bits (.itemVar deflate [] []))) c v c' k := by
  rw [single_eq]
  constructor
  · intro hp
    cases hp with
    | hint hp =>
    cases hp with
    | letFormat p1 hp =>
    obtain ⟨u, ⟨h, hh, rfl, rfl⟩, b1, rfl⟩ := (between_iff (reads_item h1 (GzipHeader.reads_header h0))).1 p1
    cases hp with
    | letFormat p2 hp =>
    have q2 := (part_iff (has_extra h s) (fun _ _ _ _ => extra_iff h0 h1 h2 h3 h4 h5 h6 h7)).1 p2
    cases hp with
    | letFormat p3 hp =>
    have q3 := (part_iff (has_name h s _) (fun _ _ _ _ => name_iff h0 h1 h2 h3 h4 h5 h6 h7)).1 p3
    cases hp with
    | letFormat p4 hp =>
    have q4 := (part_iff (has_comment h s _ _) (fun _ _ _ _ => comment_iff h0 h1 h2 h3 h4 h5 h6 h7)).1 p4
    cases hp with
    | letFormat p5 hp =>
    have q5 := (part_iff (has_sum h s _ _ _) (fun _ _ _ _ => sum_iff h0 h1 h2 h3 h4 h5 h6 h7)).1 p5
    cases hp with
    | letFormat p6 hp =>
    cases hp with
    | letFormat p7 hp =>
    obtain ⟨u7, ⟨f, hf, rfl, rfl⟩, b7, rfl⟩ := (between_iff (reads_item h2 GzipHeader.reads_footer)).1 p7
    cases hp with
    | compute hv =>
    cases (all_single ..).symm.trans hv
    obtain rfl := part_zero (fun h => by obtain ⟨_, _, _, _, _, _, _, h⟩ := h; exact h) q2
    obtain rfl := part_zero (fun h => by obtain ⟨_, _, _, _, h⟩ := h; exact h) q3
    obtain rfl := part_zero (fun h => by obtain ⟨_, _, _, _, h⟩ := h; exact h) q4
    obtain rfl := part_zero (fun h => by obtain ⟨_, _, _, _, h⟩ := h; exact h) q5
    exact ⟨h, f, _, _, _, _, _, _, _, _, _, _, _, hh, b1, q2, q3, q4, q5, by simpa using data_iff.1 p6, hf, b7, rfl⟩
  · rintro ⟨h, f, x, n, co, su, d, c1, c2, c3, c4, c5, c6, hh, b1, q2, q3, q4, q5, p6, hf, b7, rfl⟩
    have := Parses.hint (.letFormat (s := s) ((between_iff (rej := rej) (reads_item h1 (GzipHeader.reads_header h0))).2 ⟨_, ⟨h, hh, rfl, rfl⟩, b1, rfl⟩)
      (.letFormat ((part_iff (has_extra h s) (fun _ _ _ _ => extra_iff h0 h1 h2 h3 h4 h5 h6 h7)).2 q2)
      (.letFormat ((part_iff (has_name h s _) (fun _ _ _ _ => name_iff h0 h1 h2 h3 h4 h5 h6 h7)).2 q3)
      (.letFormat ((part_iff (has_comment h s _ _) (fun _ _ _ _ => comment_iff h0 h1 h2 h3 h4 h5 h6 h7)).2 q4)
      (.letFormat ((part_iff (has_sum h s _ _ _) (fun _ _ _ _ => sum_iff h0 h1 h2 h3 h4 h5 h6 h7)).2 q5)
      (.letFormat (data_iff.1 p6) (.letFormat ((between_iff (reads_item h2 GzipHeader.reads_footer)).2 ⟨_, ⟨f, hf, rfl, rfl⟩, b7, rfl⟩)
        (.compute (all_single ..)))))))))
    simpa using this

theorem members_iff {s c vs c' k} : ParsesMany m rej (single deflate l) s c vs c' k ↔
    Members (At m rej (.bits (.itemVar deflate [] []))) c vs c' k := by
  constructor
  · intro h
    induction vs generalizing c k with
    | nil => cases h; exact .nil
    | cons v vs ih =>
      cases h with
      | mcons a b => exact .cons ((member_iff h0 h1 h2 h3 h4 h5 h6 h7).1 a) (ih b)
  · intro h
    induction h with
    | nil => exact .mnil
    | cons a _ ih => exact .mcons ((member_iff h0 h1 h2 h3 h4 h5 h6 h7).2 a) ih

end

end GzipMember
end Doodle
