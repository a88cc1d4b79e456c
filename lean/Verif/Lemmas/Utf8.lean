import Verif.Model.Text

/-! The arithmetic of UTF-8: which byte strings are encodings of characters. -/

namespace Doodle
namespace Text

/-- the bytes are, one by one, in the ranges -/
def Within : List (Nat × Nat) → List UInt8 → Prop
  | [], u => u = []
  | r :: rs, u => ∃ b v, u = b :: v ∧ (r.1 ≤ b.toNat ∧ b.toNat ≤ r.2) ∧ Within rs v

/-- the well-formed byte sequences, as ranges of bytes -/
def forms : List (List (Nat × Nat)) := [
  [(0, 0)], [(0x01, 0x7F)],
  [(0xC2, 0xDF), (0x80, 0xBF)],
  [(0xE0, 0xE0), (0xA0, 0xBF), (0x80, 0xBF)],
  [(0xE1, 0xEC), (0x80, 0xBF), (0x80, 0xBF)],
  [(0xED, 0xED), (0x80, 0x9F), (0x80, 0xBF)],
  [(0xEE, 0xEF), (0x80, 0xBF), (0x80, 0xBF)],
  [(0xF0, 0xF0), (0x90, 0xBF), (0x80, 0xBF), (0x80, 0xBF)],
  [(0xF1, 0xF3), (0x80, 0xBF), (0x80, 0xBF), (0x80, 0xBF)],
  [(0xF4, 0xF4), (0x80, 0x8F), (0x80, 0xBF), (0x80, 0xBF)]]

/-- the number the payload bits stand for -/
def decode : List UInt8 → Nat
  | [a] => a.toNat
  | [a, b] => a.toNat % 32 * 64 + b.toNat % 64
  | [a, b, c] => a.toNat % 16 * 4096 + (b.toNat % 64 * 64 + c.toNat % 64)
  | [a, b, c, d] => a.toNat % 8 * 262144 + (b.toNat % 64 * 4096 + (c.toNat % 64 * 64 + d.toNat % 64))
  | _ => 0

theorem toNat_ofNat {n : Nat} (h : n < 256) : (UInt8.ofNat n).toNat = n := by
  simp [UInt8.toNat_ofNat', Nat.mod_eq_of_lt h]

theorem char_lt (c : Char) : c.val.toNat < 0xD800 ∨ (0xDFFF < c.val.toNat ∧ c.val.toNat < 0x110000) := c.valid

/-- an encoding has a form, and its payload bits are the character -/
theorem encode_form (c : Char) : (∃ F ∈ forms, Within F (String.utf8EncodeChar c)) ∧
    decode (String.utf8EncodeChar c) = c.toNat := by
  have hc := char_lt c
  show _ ∧ decode _ = c.val.toNat
  unfold String.utf8EncodeChar
  generalize c.val.toNat = v at hc ⊢
  dsimp only
  split
  · refine ⟨?_, by rw [decode, toNat_ofNat (by omega)]⟩
    by_cases h0 : v = 0
    · exact ⟨_, .head _, _, _, rfl, by rw [toNat_ofNat (by omega)]; dsimp only; omega, rfl⟩
    · exact ⟨_, .tail _ (.head _), _, _, rfl, by rw [toNat_ofNat (by omega)]; dsimp only; omega, rfl⟩
  · split
    · refine ⟨⟨_, .tail _ (.tail _ (.head _)), _, _, rfl, ?_, _, _, rfl, ?_, rfl⟩, ?_⟩
      · rw [toNat_ofNat (by omega)]; dsimp only; omega
      · rw [toNat_ofNat (by omega)]; dsimp only; omega
      · rw [decode, toNat_ofNat (by omega), toNat_ofNat (by omega)]; omega
    · split
      · refine ⟨?_, ?_⟩
        · have key : ∀ F ∈ forms, ∀ r1 r2, F = [r1, r2, (0x80, 0xBF)] →
            (r1.1 ≤ v / 4096 % 16 + 224 ∧ v / 4096 % 16 + 224 ≤ r1.2) →
            (r2.1 ≤ v / 64 % 64 + 128 ∧ v / 64 % 64 + 128 ≤ r2.2) →
            ∃ F ∈ forms, Within F [UInt8.ofNat (v / 4096 % 16 + 224), UInt8.ofNat (v / 64 % 64 + 128), UInt8.ofNat (v % 64 + 128)] := by
            rintro F hF r1 r2 rfl h1 h2
            refine ⟨_, hF, _, _, rfl, ?_, _, _, rfl, ?_, _, _, rfl, ?_, rfl⟩
            · rw [toNat_ofNat (by omega)]; exact h1
            · rw [toNat_ofNat (by omega)]; exact h2
            · rw [toNat_ofNat (by omega)]; dsimp only; omega
          by_cases h1 : v < 0x1000
          · exact key _ (.tail _ (.tail _ (.tail _ (.head _)))) _ _ rfl (by dsimp only; omega) (by dsimp only; omega)
          by_cases h2 : v < 0xD000
          · exact key _ (.tail _ (.tail _ (.tail _ (.tail _ (.head _))))) _ _ rfl (by dsimp only; omega) (by dsimp only; omega)
          by_cases h3 : v < 0xE000
          · exact key _ (.tail _ (.tail _ (.tail _ (.tail _ (.tail _ (.head _)))))) _ _ rfl (by dsimp only; omega) (by dsimp only; omega)
          · exact key _ (.tail _ (.tail _ (.tail _ (.tail _ (.tail _ (.tail _ (.head _))))))) _ _ rfl (by dsimp only; omega) (by dsimp only; omega)
        · rw [decode, toNat_ofNat (by omega), toNat_ofNat (by omega), toNat_ofNat (by omega)]; omega
      · refine ⟨?_, ?_⟩
        · have key : ∀ F ∈ forms, ∀ r1 r2, F = [r1, r2, (0x80, 0xBF), (0x80, 0xBF)] →
            (r1.1 ≤ v / 262144 % 8 + 240 ∧ v / 262144 % 8 + 240 ≤ r1.2) →
            (r2.1 ≤ v / 4096 % 64 + 128 ∧ v / 4096 % 64 + 128 ≤ r2.2) →
            ∃ F ∈ forms, Within F [UInt8.ofNat (v / 262144 % 8 + 240), UInt8.ofNat (v / 4096 % 64 + 128), UInt8.ofNat (v / 64 % 64 + 128), UInt8.ofNat (v % 64 + 128)] := by
            rintro F hF r1 r2 rfl h1 h2
            refine ⟨_, hF, _, _, rfl, ?_, _, _, rfl, ?_, _, _, rfl, ?_, _, _, rfl, ?_, rfl⟩
            · rw [toNat_ofNat (by omega)]; exact h1
            · rw [toNat_ofNat (by omega)]; exact h2
            · rw [toNat_ofNat (by omega)]; dsimp only; omega
            · rw [toNat_ofNat (by omega)]; dsimp only; omega
          by_cases h1 : v < 0x40000
          · exact key _ (.tail _ (.tail _ (.tail _ (.tail _ (.tail _ (.tail _ (.tail _ (.head _)))))))) _ _ rfl (by dsimp only; omega) (by dsimp only; omega)
          by_cases h2 : v < 0x100000
          · exact key _ (.tail _ (.tail _ (.tail _ (.tail _ (.tail _ (.tail _ (.tail _ (.tail _ (.head _))))))))) _ _ rfl (by dsimp only; omega) (by dsimp only; omega)
          · exact key _ (.tail _ (.tail _ (.tail _ (.tail _ (.tail _ (.tail _ (.tail _ (.tail _ (.tail _ (.head _)))))))))) _ _ rfl (by dsimp only; omega) (by dsimp only; omega)
        · rw [decode, toNat_ofNat (by omega), toNat_ofNat (by omega), toNat_ofNat (by omega), toNat_ofNat (by omega)]; omega

theorem byte_eq {b : UInt8} {n : Nat} (h : n = b.toNat) : UInt8.ofNat n = b := by
  rw [h, UInt8.ofNat_toNat]

theorem val_ofNat {n : Nat} (h : n.isValidChar) : (Char.ofNat n).val.toNat = n := by
  unfold Char.ofNat
  rw [dif_pos h]
  rfl

/-- a byte string of one of the forms is an encoding -/
theorem form_encode {F : List (Nat × Nat)} (hF : F ∈ forms) {u : List UInt8} (h : Within F u) :
    (decode u).isValidChar ∧ String.utf8EncodeChar (Char.ofNat (decode u)) = u := by
  have enc : ∀ n, n.isValidChar → n = decode u →
      (if n ≤ 0x7f then [UInt8.ofNat n]
       else if n ≤ 0x7ff then [UInt8.ofNat (n / 64 % 0x20 + 0xc0), UInt8.ofNat (n % 0x40 + 0x80)]
       else if n ≤ 0xffff then [UInt8.ofNat (n / 4096 % 0x10 + 0xe0), UInt8.ofNat (n / 64 % 0x40 + 0x80), UInt8.ofNat (n % 0x40 + 0x80)]
       else [UInt8.ofNat (n / 262144 % 0x08 + 0xf0), UInt8.ofNat (n / 4096 % 0x40 + 0x80), UInt8.ofNat (n / 64 % 0x40 + 0x80), UInt8.ofNat (n % 0x40 + 0x80)]) = u →
      (decode u).isValidChar ∧ String.utf8EncodeChar (Char.ofNat (decode u)) = u := by
    rintro n hn rfl h
    refine ⟨hn, ?_⟩
    unfold String.utf8EncodeChar
    rw [val_ofNat hn]
    exact h
  have one : ∀ {r}, Within [r] u → r.2 ≤ 0x7f → (decode u).isValidChar ∧ String.utf8EncodeChar (Char.ofNat (decode u)) = u := by
    rintro r ⟨b, _, rfl, hb, rfl⟩ hr
    refine enc b.toNat (.inl (by omega)) rfl ?_
    rw [if_pos (by omega), byte_eq rfl]
  have three : ∀ {r1 r2}, Within [r1, r2, (0x80, 0xBF)] u → 0xE0 ≤ r1.1 → r1.2 ≤ 0xEF → 0x80 ≤ r2.1 → r2.2 ≤ 0xBF →
      (r1.1 = 0xE0 → 0xA0 ≤ r2.1) → ((0xED < r1.1 ∨ r1.2 < 0xED) ∨ r2.2 ≤ 0x9F) →
      (decode u).isValidChar ∧ String.utf8EncodeChar (Char.ofNat (decode u)) = u := by
    rintro r1 r2 ⟨a, _, rfl, ha, b, _, rfl, hb, c, _, rfl, hc, rfl⟩ h1 h2 h3 h4 h5 h6
    dsimp only at hc
    refine enc (a.toNat % 16 * 4096 + (b.toNat % 64 * 64 + c.toNat % 64)) ?_ rfl ?_
    · unfold Nat.isValidChar; omega
    · rw [if_neg (by omega), if_neg (by omega), if_pos (by omega), byte_eq (b := a) (by omega), byte_eq (b := b) (by omega),
        byte_eq (b := c) (by omega)]
  have four : ∀ {r1 r2}, Within [r1, r2, (0x80, 0xBF), (0x80, 0xBF)] u → 0xF0 ≤ r1.1 → r1.2 ≤ 0xF4 → 0x80 ≤ r2.1 →
      r2.2 ≤ 0xBF → (r1.1 = 0xF0 → 0x90 ≤ r2.1) → (r1.2 = 0xF4 → r2.2 ≤ 0x8F) →
      (decode u).isValidChar ∧ String.utf8EncodeChar (Char.ofNat (decode u)) = u := by
    rintro r1 r2 ⟨a, _, rfl, ha, b, _, rfl, hb, c, _, rfl, hc, d, _, rfl, hd, rfl⟩ h1 h2 h3 h4 h5 h6
    dsimp only at hc hd
    refine enc (a.toNat % 8 * 262144 + (b.toNat % 64 * 4096 + (c.toNat % 64 * 64 + d.toNat % 64))) ?_ rfl ?_
    · unfold Nat.isValidChar; omega
    · rw [if_neg (by omega), if_neg (by omega), if_neg (by omega), byte_eq (b := a) (by omega), byte_eq (b := b) (by omega),
        byte_eq (b := c) (by omega), byte_eq (b := d) (by omega)]
  simp only [forms, List.mem_cons, List.not_mem_nil, or_false] at hF
  rcases hF with rfl | rfl | rfl | rfl | rfl | rfl | rfl | rfl | rfl | rfl
  · exact one h (by decide)
  · exact one h (by decide)
  · obtain ⟨a, _, rfl, ha, b, _, rfl, hb, rfl⟩ := h
    dsimp only at ha hb
    refine enc (a.toNat % 32 * 64 + b.toNat % 64) (.inl (by omega)) rfl ?_
    rw [if_neg (by omega), if_pos (by omega), byte_eq (b := a) (by omega), byte_eq (b := b) (by omega)]
  all_goals first
    | exact three h (by decide) (by decide) (by decide) (by decide) (by decide) (by decide)
    | exact four h (by decide) (by decide) (by decide) (by decide) (by decide) (by decide)

theorem encode_inj {c c' : Char} (h : String.utf8EncodeChar c = String.utf8EncodeChar c') : c = c' := by
  have := (encode_form c).2.symm.trans ((congrArg decode h).trans (encode_form c').2)
  exact Char.ext (UInt32.toNat_inj.1 this)

theorem encode_decode {F : List (Nat × Nat)} (hF : F ∈ forms) {u : List UInt8} {c : Char} (h : Within F u)
    (hu : decode u = c.toNat) : String.utf8EncodeChar c = u := by
  have := (form_encode hF h).2
  rw [hu] at this
  rwa [Char.ofNat_toNat] at this

theorem encode_ne_nil (c : Char) : String.utf8EncodeChar c ≠ [] := by
  obtain ⟨⟨F, hF, h⟩, _⟩ := encode_form c
  simp only [forms, List.mem_cons, List.not_mem_nil, or_false] at hF
  rcases hF with rfl | rfl | rfl | rfl | rfl | rfl | rfl | rfl | rfl | rfl <;>
    (obtain ⟨b, v, hv, _⟩ := h; rw [hv]; exact List.cons_ne_nil _ _)

/-- no encoding is a proper beginning of another -/
theorem prefix_free {c c' : Char} {p q : List UInt8} (h : String.utf8EncodeChar c ++ p = String.utf8EncodeChar c' ++ q) :
    c = c' ∧ p = q := by
  obtain ⟨⟨F, hF, h1⟩, _⟩ := encode_form c
  obtain ⟨⟨F', hF', h2⟩, _⟩ := encode_form c'
  have key : ∀ {G G' u u' p q}, G ∈ forms → G' ∈ forms → Within G u → Within G' u' → u ++ p = u' ++ q → u = u' ∧ p = q := by
    have head : ∀ {r rs r' rs' u u' p q}, Within (r :: rs) u → Within (r' :: rs') u' → u ++ p = u' ++ q →
        (r.1 ≤ r'.2 ∧ r'.1 ≤ r.2) := by
      rintro r rs r' rs' u u' p q ⟨b, v, rfl, hb, _⟩ ⟨b', v', rfl, hb', _⟩ h
      have := (List.cons.inj h).1; subst this; omega
    have len : ∀ {G u}, Within G u → u.length = G.length := by
      intro G
      induction G with
      | nil => rintro u rfl; rfl
      | cons r rs ih => rintro u ⟨b, v, rfl, _, h⟩; simp [ih h]
    have same : ∀ {G G' u u' p q}, Within G u → Within G' u' → G.length = G'.length → u ++ p = u' ++ q → u = u' ∧ p = q := by
      intro G G' u u' p q h1 h2 hl h
      exact List.append_inj h (by rw [len h1, len h2, hl])
    intro G G' u u' p q hG hG' h1 h2 h
    by_cases hl : G.length = G'.length
    · exact same h1 h2 hl h
    · exfalso
      have hd : ∀ G ∈ forms, ∀ G' ∈ forms, G.length ≠ G'.length → ∀ r rs r' rs', G = r :: rs → G' = r' :: rs' →
          ¬ (r.1 ≤ r'.2 ∧ r'.1 ≤ r.2) := by
        intro G hG G' hG' hne r rs r' rs' e e'
        simp only [forms, List.mem_cons, List.not_mem_nil, or_false] at hG hG'
        rcases hG with rfl | rfl | rfl | rfl | rfl | rfl | rfl | rfl | rfl | rfl <;> cases e <;>
        rcases hG' with rfl | rfl | rfl | rfl | rfl | rfl | rfl | rfl | rfl | rfl <;> cases e' <;>
          first
            | exact absurd rfl hne
            | (dsimp only; omega)
      have hne : ∀ G ∈ forms, G ≠ [] := by decide
      cases G with
      | nil => exact hne _ hG rfl
      | cons r rs =>
        cases G' with
        | nil => exact hne _ hG' rfl
        | cons r' rs' => exact hd _ hG _ hG' hl _ _ _ _ rfl rfl (head h1 h2 h)
  obtain ⟨h3, h4⟩ := key hF hF' h1 h2 h
  exact ⟨encode_inj h3, h4⟩

end Text
end Doodle
