import Verif.Utf8
/-!
ASCII bytes inside UTF-8: a byte below 128 in the encoding of a string stands for that character
and for nothing else. This is what makes it safe to look for separators in encoded text.
-/
namespace Verif

theorem ofNat_toNat_lt {n : Nat} (h : n < 256) : (UInt8.ofNat n).toNat = n := by
  simp [UInt8.toNat_ofNat', Nat.mod_eq_of_lt h]

/-- Bytes below 128 come from the character with that code only. -/
theorem ascii_of_mem_encodeChar {c : Char} {b : UInt8} (h : b ∈ String.utf8EncodeChar c)
    (hb : b.toNat < 128) : c.val.toNat = b.toNat := by
  unfold String.utf8EncodeChar at h
  simp only at h
  have key : ∀ n, 128 ≤ n → n < 256 → b ≠ UInt8.ofNat n := by
    intro n h1 h2 e
    rw [e, ofNat_toNat_lt h2] at hb
    omega
  split at h
  · simp only [List.mem_singleton] at h
    rw [h, ofNat_toNat_lt (by omega)]
  · split at h
    · simp only [List.mem_cons, List.not_mem_nil, or_false] at h
      rcases h with h | h <;> exact absurd h (key _ (by omega) (by omega))
    · split at h
      · simp only [List.mem_cons, List.not_mem_nil, or_false] at h
        rcases h with h | h | h <;> exact absurd h (key _ (by omega) (by omega))
      · simp only [List.mem_cons, List.not_mem_nil, or_false] at h
        rcases h with h | h | h | h <;> exact absurd h (key _ (by omega) (by omega))

theorem encodeChar_ascii {c : Char} (h : c.val.toNat < 128) :
    String.utf8EncodeChar c = [UInt8.ofNat c.val.toNat] := by
  unfold String.utf8EncodeChar
  simp only
  rw [if_pos (by omega)]

/-- An ASCII byte occurs in the encoding exactly when its character occurs in the string. -/
theorem mem_utf8_ascii (s : List Char) (c : Char) (hc : c.val.toNat < 128) :
    UInt8.ofNat c.val.toNat ∈ utf8 s ↔ c ∈ s := by
  unfold utf8
  rw [List.mem_flatMap]
  constructor
  · rintro ⟨d, hd, hm⟩
    have hn : (UInt8.ofNat c.val.toNat).toNat = c.val.toNat := ofNat_toNat_lt (by omega)
    have := ascii_of_mem_encodeChar hm (by omega)
    rw [hn] at this
    have : d = c := Char.ext (UInt32.toNat_inj.mp this)
    exact this ▸ hd
  · intro h
    exact ⟨c, h, by rw [encodeChar_ascii hc]; exact List.mem_singleton.mpr rfl⟩

/-- Strings of ASCII characters encode to one byte per character. -/
theorem utf8_ascii (s : List Char) (h : ∀ c ∈ s, c.val.toNat < 128) :
    utf8 s = s.map (fun c => UInt8.ofNat c.val.toNat) := by
  induction s with
  | nil => rfl
  | cons c s ih =>
    have h1 := encodeChar_ascii (h c List.mem_cons_self)
    have h2 := ih (fun d hd => h d (List.mem_cons_of_mem _ hd))
    unfold utf8 at h2 ⊢
    rw [List.flatMap_cons, h1, h2]
    rfl

theorem zero_mem_utf8 (s : List Char) : (0 : UInt8) ∈ utf8 s ↔ '\x00' ∈ s :=
  mem_utf8_ascii s '\x00' (by decide)

end Verif
