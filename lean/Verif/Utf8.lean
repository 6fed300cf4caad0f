import Verif.Base
/-!
UTF-8, as `str.encode()` and `bytes.decode()` use it. Lean's core library supplies the encoding of
a character and the decoder; both follow the Unicode standard (no overlong forms, no surrogates).
Python strings holding lone surrogates, which `encode` refuses, are outside the model.
-/
namespace Verif

/-- `str.encode()`. -/
def utf8 (s : List Char) : Bytes := s.flatMap String.utf8EncodeChar

/-- `bytes.decode()`. -/
def utf8Dec (b : Bytes) : Except PyErr (List Char) :=
  match (b.toByteArray).utf8Decode? with
  | some cs => .ok cs.toList
  | none => .error .unicode

theorem utf8Dec_utf8 (s : List Char) : utf8Dec (utf8 s) = .ok s := by
  have h : (utf8 s).toByteArray = s.utf8Encode := rfl
  simp [utf8Dec, h, List.utf8Decode?_utf8Encode]

theorem utf8_length_ge (s : List Char) : s.length ≤ (utf8 s).length := by
  induction s with
  | nil => simp [utf8]
  | cons c s ih =>
    simp only [utf8, List.flatMap_cons, List.length_append, List.length_cons,
      String.length_utf8EncodeChar] at ih ⊢
    have := c.utf8Size_pos
    omega

theorem utf8_nil : utf8 [] = [] := rfl

theorem utf8_append (s t : List Char) : utf8 (s ++ t) = utf8 s ++ utf8 t := by simp [utf8]

/-- One byte per character exactly for ASCII strings. -/
theorem utf8_length_eq_iff (s : List Char) : (utf8 s).length = s.length ↔ ∀ c ∈ s, c.val ≤ 127 := by
  induction s with
  | nil => simp [utf8]
  | cons c s ih =>
    have h1 := c.utf8Size_pos
    have h2 := utf8_length_ge s
    have h3 : (utf8 (c :: s)).length = c.utf8Size + (utf8 s).length := by
      simp [utf8, String.length_utf8EncodeChar]
    rw [h3, List.length_cons]
    constructor
    · intro h
      have hc : c.utf8Size = 1 := by omega
      have hs : (utf8 s).length = s.length := by omega
      intro d hd
      rcases List.mem_cons.mp hd with rfl | hd
      · exact Char.utf8Size_eq_one_iff.mp hc
      · exact ih.mp hs d hd
    · intro h
      have hc : c.utf8Size = 1 := Char.utf8Size_eq_one_iff.mpr (h c List.mem_cons_self)
      have hs := ih.mpr (fun d hd => h d (List.mem_cons_of_mem _ hd))
      omega

/-- Encoding distinct strings gives distinct bytes. -/
theorem utf8_inj {s t : List Char} (h : utf8 s = utf8 t) : s = t := by
  have h1 := utf8Dec_utf8 s
  rw [h, utf8Dec_utf8] at h1
  injection h1 with h1
  exact h1.symm

/-- Decoding gives the string whose encoding the bytes are. -/
theorem utf8_of_utf8Dec {b : Bytes} {s : List Char} (h : utf8Dec b = .ok s) : utf8 s = b := by
  unfold utf8Dec at h
  split at h
  · rename_i cs hd
    injection h with h
    subst h
    have h1 : (b.toByteArray.utf8Decode?).isSome := by rw [hd]; rfl
    have h2 := ByteArray.utf8Encode_get_utf8Decode? (b := b.toByteArray) (h := h1)
    have h3 : (b.toByteArray.utf8Decode?).get h1 = cs := by simp [hd]
    rw [h3] at h2
    have h4 : (utf8 cs.toList).toByteArray = b.toByteArray := h2
    have h5 := congrArg (fun x : ByteArray => x.data.toList) h4
    simpa using h5
  · cases h

end Verif
