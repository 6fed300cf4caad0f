import Verif.Serial.Model
import Mathlib.Data.List.Forall2
/-! Packing and unpacking of element sequences, and the well-formedness of arrays. -/
namespace Verif.Serial

open Verif.Wire

theorem kind_size_pos (k : Kind) : 0 < k.size := by cases k <;> first | exact IntKind.size_pos _ | decide

theorem storeVal_of_hasKind {k : Kind} {v : Val} (h : Spec.HasKind k v) : storeVal k v = v := by
  cases k <;> cases v <;> simp only [Spec.HasKind] at h <;> first | rfl | skip
  rename_i k v
  have : packable k.size k.signed v = true := (packable_iff k v).mpr h
  simp [storeVal, wrap_of_packable k v this]

/-- Packing values of the right kinds succeeds; unpacking gives the values back. -/
theorem pack_unpack (o : ByteOrder) (cells : List (Kind × Val)) (off : Nat)
    (hk : ∀ c ∈ cells, Spec.HasKind c.1 c.2) :
    ∃ bs, pack o off cells = .ok bs ∧ off + bs.length = calcsize o off (cells.map Prod.fst)
      ∧ ∀ rest, unpackFrom o off (cells.map Prod.fst) (bs ++ rest) = .ok (cells.map Prod.snd) := by
  induction cells generalizing off with
  | nil => exact ⟨[], rfl, rfl, fun _ => rfl⟩
  | cons c rest ih =>
    obtain ⟨k, v⟩ := c
    obtain ⟨b, hb, hlen, hdec⟩ := C01_all_kinds k o v (hk (k, v) List.mem_cons_self)
    obtain ⟨bs, h1, h2, h3⟩ := ih (off + padLen o off k.size + k.size)
      (fun c hc => hk c (List.mem_cons_of_mem _ hc))
    refine ⟨List.replicate (padLen o off k.size) 0 ++ b ++ bs, by simp [pack, hb, h1], ?_, fun rs => ?_⟩
    · simp only [List.map_cons, calcsize, ← h2, List.length_append, List.length_replicate, hlen]
      omega
    · simp only [List.map_cons, unpackFrom]
      have e1 : ((List.replicate (padLen o off k.size) 0 ++ b ++ bs ++ rs).drop (padLen o off k.size)).take k.size
          = b := by
        rw [List.append_assoc, List.append_assoc, List.drop_append_of_le_length (by simp)]
        simp [← hlen]
      have e2 : (List.replicate (padLen o off k.size) 0 ++ b ++ bs ++ rs).drop (padLen o off k.size + k.size)
          = bs ++ rs := by
        rw [List.append_assoc, List.drop_append_of_le_length (by simp [hlen])]
        have : (List.replicate (padLen o off k.size) (0 : UInt8) ++ b).length = padLen o off k.size + k.size := by
          simp [hlen]
        rw [← this, List.drop_length, List.nil_append]
      rw [e1, e2, hdec, h3]

/-- Unpacking gives one value of the right kind per element. -/
theorem unpackFrom_kinds (o : ByteOrder) (fmt : List Kind) (off : Nat) (bs : Bytes) (vs : List Val)
    (h : unpackFrom o off fmt bs = .ok vs) : List.Forall₂ Spec.HasKind fmt vs := by
  induction fmt generalizing off bs vs with
  | nil => simp only [unpackFrom, Except.ok.injEq] at h; subst h; exact .nil
  | cons k rest ih =>
    simp only [unpackFrom] at h
    cases hd : decode k o ((bs.drop (padLen o off k.size)).take k.size) with
    | error e => rw [hd] at h; cases h
    | ok v =>
      rw [hd] at h
      dsimp only at h
      cases hu : unpackFrom o (off + padLen o off k.size + k.size) rest (bs.drop (padLen o off k.size + k.size)) with
      | error e => rw [hu] at h; cases h
      | ok vs' =>
        rw [hu] at h
        have : v :: vs' = vs := by simpa using h
        subst this
        refine .cons ?_ (ih _ _ _ hu)
        have hl : ((bs.drop (padLen o off k.size)).take k.size).length = k.size := by
          unfold decode at hd
          split at hd
          · assumption
          · cases hd
        obtain ⟨v', e1, e2, -⟩ := C02_decode_hasKind k o _ hl
        rw [hd] at e1
        cases e1; exact e2

/-- Unpacking data of the right length succeeds. -/
theorem unpackFrom_ok (o : ByteOrder) (fmt : List Kind) (off : Nat) (bs : Bytes)
    (h : off + bs.length = calcsize o off fmt) : ∃ vs, unpackFrom o off fmt bs = .ok vs := by
  have hmono : ∀ fmt off, off ≤ calcsize o off fmt := by
    intro fmt
    induction fmt with
    | nil => intro off; exact Nat.le_refl _
    | cons k rest ih => intro off; have := ih (off + padLen o off k.size + k.size); simp only [calcsize]; omega
  induction fmt generalizing off bs with
  | nil => exact ⟨[], rfl⟩
  | cons k rest ih =>
    simp only [calcsize] at h
    have hm := hmono rest (off + padLen o off k.size + k.size)
    obtain ⟨vs, hvs⟩ := ih (off + padLen o off k.size + k.size) (bs.drop (padLen o off k.size + k.size))
      (by rw [List.length_drop]; omega)
    have hl : ((bs.drop (padLen o off k.size)).take k.size).length = k.size := by
      rw [List.length_take, List.length_drop]; omega
    obtain ⟨v, hv, -⟩ := C02_decode_hasKind k o _ hl
    exact ⟨v :: vs, by simp only [unpackFrom, hv, hvs]⟩

/-- Without native alignment the packed size is the sum of the element sizes. -/
theorem calcsize_sum (o : ByteOrder) (ho : o ≠ .native) (fmt : List Kind) (off : Nat) :
    calcsize o off fmt = off + (fmt.map Kind.size).sum := by
  induction fmt generalizing off with
  | nil => rfl
  | cons k rest ih =>
    rw [calcsize, ih]
    simp only [padLen, if_neg ho, List.map_cons, List.sum_cons]
    omega

/-- Without native alignment, packing is the concatenation of the encodings. -/
theorem pack_concat (o : ByteOrder) (ho : o ≠ .native) (cells : List (Kind × Val)) (off : Nat)
    (hk : ∀ c ∈ cells, Spec.HasKind c.1 c.2) :
    ∃ bss, List.Forall₂ (fun (c : Kind × Val) b => encode c.1 o c.2 = .ok b) cells bss
      ∧ pack o off cells = .ok bss.flatten := by
  induction cells generalizing off with
  | nil => exact ⟨[], .nil, rfl⟩
  | cons c rest ih =>
    obtain ⟨k, v⟩ := c
    obtain ⟨b, hb, -, -⟩ := C01_all_kinds k o v (hk (k, v) List.mem_cons_self)
    obtain ⟨bss, h1, h2⟩ := ih (off + padLen o off k.size + k.size)
      (fun c hc => hk c (List.mem_cons_of_mem _ hc))
    refine ⟨b :: bss, .cons hb h1, ?_⟩
    simp only [pack, hb, h2]
    simp [padLen, ho]

theorem pack_shift (o : ByteOrder) (ho : o ≠ .native) (cells : List (Kind × Val)) (a b : Nat) :
    pack o a cells = pack o b cells := by
  induction cells generalizing a b with
  | nil => rfl
  | cons c rest ih =>
    obtain ⟨k, v⟩ := c
    simp only [pack, padLen, if_neg ho]
    rw [ih (a + 0 + k.size) (b + 0 + k.size)]

theorem pack_append (o : ByteOrder) (ho : o ≠ .native) (c1 c2 : List (Kind × Val)) (bs : Bytes)
    (h : pack o 0 (c1 ++ c2) = .ok bs) :
    ∃ b1 b2, pack o 0 c1 = .ok b1 ∧ pack o 0 c2 = .ok b2 ∧ bs = b1 ++ b2 := by
  induction c1 generalizing bs with
  | nil => exact ⟨[], bs, rfl, h, rfl⟩
  | cons c rest ih =>
    obtain ⟨k, v⟩ := c
    simp only [List.cons_append, pack] at h
    cases he : encode k o v with
    | error e => rw [he] at h; cases h
    | ok b =>
      rw [he] at h
      dsimp only at h
      rw [pack_shift o ho _ _ 0] at h
      cases hp : pack o 0 (rest ++ c2) with
      | error e => rw [hp] at h; cases h
      | ok bs' =>
        rw [hp] at h
        obtain ⟨b1, b2, e1, e2, e3⟩ := ih bs' hp
        have : List.replicate (padLen o 0 k.size) 0 ++ b ++ bs' = bs := by simpa using h
        refine ⟨List.replicate (padLen o 0 k.size) 0 ++ b ++ b1, b2, ?_, e2, ?_⟩
        · simp only [pack, he]
          rw [pack_shift o ho _ _ 0, e1]
        · rw [← this, e3]; simp

theorem pack_length (o : ByteOrder) (ho : o ≠ .native) (cells : List (Kind × Val)) (off : Nat) (bs : Bytes)
    (h : pack o off cells = .ok bs) : bs.length = (cells.map (fun c => c.1.size)).sum := by
  induction cells generalizing off bs with
  | nil => simp only [pack, Except.ok.injEq] at h; subst h; rfl
  | cons c rest ih =>
    obtain ⟨k, v⟩ := c
    simp only [pack] at h
    cases he : encode k o v with
    | error e => rw [he] at h; cases h
    | ok b =>
      rw [he] at h
      dsimp only at h
      cases hp : pack o (off + padLen o off k.size + k.size) rest with
      | error e => rw [hp] at h; cases h
      | ok bs' =>
        rw [hp] at h
        have : List.replicate (padLen o off k.size) 0 ++ b ++ bs' = bs := by simpa using h
        rw [← this]
        simp [padLen, ho, encode_length k o v b he, ih _ _ hp]

/-! ### Well-formed heaps -/

/-- Every primitive holds a value of its kind. -/
def Typed (h : Heap) : Prop := ∀ r, Spec.HasKind (h.prim r).kind (h.prim r).val

/-- Consistency of an array's bookkeeping. -/
structure ArrOk (h : Heap) (a : Arr) : Prop where
  fmt : a.fmt = a.prims.map (fun r => (h.prim r).kind)
  size : a.size = (a.fmt.map Kind.size).sum
  refs : ∀ r ∈ a.prims, r < h.np
  frags : ∀ f ∈ a.frags, f < h.nn
  toByte : ∀ i b, dget a.toByte i = some b → i ≤ a.prims.length ∧ b = ((a.fmt.take i).map Kind.size).sum
  toIndex : ∀ b i, dget a.toIndex b = some i ↔ dget a.toByte i = some b
  first : dget a.toByte 0 = some 0
  last : dget a.toByte a.prims.length = some a.size

/-- Consistency of a prefixed chunk. -/
structure PreOk (p : Pre) : Prop where
  unsigned : p.kind.signed = false
  pfx : p.pfx = p.data.length
  fits : packable p.kind.size p.kind.signed p.pfx = true
  size : p.size = p.kind.size + p.data.length

/-- Well-formed heaps. Prefixed chunks are left out: one whose update was refused is inconsistent. -/
structure HeapOk (h : Heap) : Prop where
  typed : Typed h
  arrays : ∀ i a, (h.node i).body = .array a → ArrOk h a
  links : ∀ i j, (h.node i).next = some j → j < h.nn
  unused : ∀ i, h.nn ≤ i → (h.node i).next = none ∧ ∀ a, (h.node i).body ≠ .array a

end Verif.Serial
