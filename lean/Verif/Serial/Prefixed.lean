import Verif.Serial.Append
/-! C24: length-prefixed chunks. -/
namespace Verif.Serial

open Verif.Wire

theorem wrap_nat_eq_iff (k : IntKind) (hu : k.signed = false) (n : Nat) :
    wrap k n = (n : Int) ↔ n < 2 ^ (8 * k.size) := by
  constructor
  · intro h
    have hp := wrap_packable k n
    rw [h, hu] at hp
    simp only [packable, Bool.false_eq_true, if_false, Bool.and_eq_true, decide_eq_true_eq] at hp
    have := hp.2
    exact_mod_cast this
  · intro h
    apply wrap_of_packable
    rw [hu]
    simp only [packable, Bool.false_eq_true, if_false, Bool.and_eq_true, decide_eq_true_eq]
    constructor
    · omega
    · exact_mod_cast h

/-- C24. A payload whose length the prefix can hold is stored and the chunk is consistent; a
longer one is refused with an assertion, never accepted. -/
theorem C24_update (p : Pre) (hu : p.kind.signed = false) (data : Bytes) :
    (data.length < 2 ^ (8 * Spec.bytes p.kind) →
      (p.update data).2 = .ok (Spec.bytes p.kind + data.length) ∧ (p.update data).1.data = data
      ∧ PreOk (p.update data).1)
    ∧ (2 ^ (8 * Spec.bytes p.kind) ≤ data.length → (p.update data).2 = .error .assertion) := by
  rw [← spec_bytes]
  have hw := wrap_nat_eq_iff p.kind hu data.length
  constructor
  · intro hl
    have e := hw.mpr hl
    have hp := wrap_packable p.kind data.length
    simp only [Pre.update, Pre.updateSize, e, if_true]
    rw [e] at hp
    exact ⟨by simp, trivial, ⟨hu, rfl, hp, by simp⟩⟩
  · intro hl
    have e : ¬ wrap p.kind data.length = (data.length : Int) := fun h => by have := hw.mp h; omega
    simp only [Pre.update, Pre.updateSize, if_neg e]

/-- C24. New chunks are consistent; a signed prefix is refused. -/
theorem C24_new (h : Heap) (k : IntKind) (o : ByteOrder) (v : Int) :
    (k.signed = true → h.newPrefixed k o v = (h, .error .assertion))
    ∧ (k.signed = false → ∃ h' p, h.newPrefixed k o v = (h', .ok h.nn)
        ∧ h'.node h.nn = ⟨.prefixed p, none⟩ ∧ PreOk p ∧ p.kind = k ∧ p.order = o) := by
  constructor
  · intro hs; simp [Heap.newPrefixed, hs]
  · intro hs
    have hp := wrap_packable k v
    have hnn : 0 ≤ wrap k v := by
      rw [hs] at hp
      simp only [packable, Bool.false_eq_true, if_false, Bool.and_eq_true, decide_eq_true_eq] at hp
      exact hp.1
    refine ⟨(h.newNode (.prefixed ⟨k, o, wrap k v, List.replicate (wrap k v).toNat 0, k.size + (wrap k v).toNat⟩)).1,
      ⟨k, o, wrap k v, List.replicate (wrap k v).toNat 0, k.size + (wrap k v).toNat⟩, ?_, ?_, ?_, rfl, rfl⟩
    · simp [Heap.newPrefixed, hs, Heap.newNode]
    · simp [Heap.newNode]
    · exact ⟨hs, by simp; omega, hp, by simp⟩

/-- C24. A consistent chunk is written as its prefix followed by its payload, as many bytes as its
size; reading those bytes, followed by anything, into a chunk of the same prefix type and byte
order gives the same payload and consumes exactly them. -/
theorem C24_round_trip (h0 h : Heap) (h0k : HeapOk h0) (hk : HeapOk h) (i j : Nat) (p p' : Pre)
    (hi : (h0.node i).body = .prefixed p) (hj : (h.node j).body = .prefixed p') (hp : PreOk p)
    (hkind : p'.kind = p.kind) (hord : p'.order = p.order) :
    ∃ pre, encodeInt p.kind p.order p.data.length = .ok pre ∧ h0.bytes i = .ok (pre ++ p.data)
      ∧ (pre ++ p.data).length = p.size
      ∧ ∀ rest, ∃ h' q, h.fromStreamOne j (pre ++ p.data ++ rest) = (h', .ok (p.size, rest))
        ∧ (h'.node j).body = .prefixed q ∧ q.data = p.data ∧ PreOk q ∧ q.kind = p.kind ∧ q.order = p.order
        ∧ (∀ k, k ≠ j → h'.node k = h.node k) := by
  obtain ⟨bs, b1, b2, b3⟩ := read_one h0 h h0k hk i j (by simp only [Sound, hi]; exact hp)
    (by simp only [SameShape, hj, view, hi]; exact ⟨hkind, hord, by rw [hkind]; exact hp.unsigned⟩)
    (by simp [primsOf, hj])
  obtain ⟨pre, eb, el, ed⟩ := (C01_encode_decode p.kind p.order p.pfx).1 ((packable_iff _ _).mp hp.fits)
  have hb : h0.bytes i = .ok (pre ++ p.data) := by simp [Heap.bytes, hi, eb]
  rw [hb] at b1
  cases b1
  have hsz : (pre ++ p.data).length = p.size := by rw [b2, hi]; rfl
  refine ⟨pre, by rw [← hp.pfx]; exact eb, hb, hsz, fun rest => ?_⟩
  obtain ⟨h', r1, r2, r3, r4, r5, -⟩ := b3 rest
  have hv : view h' j = .prefixed p.kind p.order p.data := by rw [r2]; simp [view, hi]
  cases hbd : (h'.node j).body with
  | array a => simp [view, hbd] at hv
  | fixed d => simp [view, hbd] at hv
  | prefixed q =>
    simp only [view, hbd, View.prefixed.injEq] at hv
    simp only [Sound, hbd] at r3
    exact ⟨h', q, by rw [r1, hsz], hbd, hv.2.2, r3, hv.1, hv.2.1, r5⟩

/-- C24. If the stream ends inside the chunk, reading raises. -/
theorem C24_truncated (h : Heap) (j : Nat) (p p' : Pre) (hj : (h.node j).body = .prefixed p') (hp : PreOk p)
    (hkind : p'.kind = p.kind) (hord : p'.order = p.order) (pre : Bytes)
    (he : encodeInt p.kind p.order p.data.length = .ok pre) (n : Nat) (hn : n < (pre ++ p.data).length) :
    ∃ e, (h.fromStreamOne j ((pre ++ p.data).take n)).2 = .error e := by
  obtain ⟨pre', eb, el, ed⟩ := (C01_encode_decode p.kind p.order p.pfx).1 ((packable_iff _ _).mp hp.fits)
  rw [hp.pfx, he] at eb
  cases eb
  rw [← spec_bytes] at el
  rw [List.length_append] at hn
  simp only [Heap.fromStreamOne, hj]
  by_cases hlt : n < pre.length
  · have : decodeInt p'.kind p'.order (((pre ++ p.data).take n).take p'.kind.size) = .error .struct := by
      apply (C02_decode_encode p'.kind p'.order _).2
      rw [← spec_bytes, hkind]
      simp only [List.length_take, List.length_append]
      omega
    rw [this]
    exact ⟨_, rfl⟩
  · have ht : ((pre ++ p.data).take n).take p'.kind.size = pre := by
      rw [hkind, List.take_take, Nat.min_eq_left (by omega), List.take_append_of_le_length (by omega),
        List.take_of_length_le (by omega)]
    have hd : ((pre ++ p.data).take n).drop p'.kind.size = p.data.take (n - pre.length) := by
      rw [hkind, ← el, List.take_append, List.take_of_length_le (by omega), List.drop_append]
      simp
    have hdec : decodeInt p'.kind p'.order pre = .ok (p.data.length : Int) := by
      rw [hkind, hord, ed, hp.pfx]
    rw [ht]
    simp only [hdec, hd, Pre.updateSize, Int.toNat_natCast]
    rw [if_neg ?_]
    · exact ⟨_, rfl⟩
    · simp only [List.length_take]
      omega

/-- A refused update is not undone: the chunk keeps the long payload with the wrapped prefix, and
what it then writes is read back as a shorter payload. -/
theorem C24_refused_update_fails :
    let h := (Heap.empty.newPrefixed .uint8 .network 0).1
    let big := List.replicate 257 (7 : UInt8)
    (h.update 0 big).2 = .error .assertion ∧ (h.update 0 big).1.bytes 0 = .ok (1 :: big)
    ∧ (h.fromStreamOne 0 (1 :: big)).2 = .ok (2, List.replicate 256 7) := by
  decide +kernel

example : let h := (Heap.empty.newPrefixed .uint16 .network 0).1
    (h.update 0 [1, 2, 3]).2 = .ok 5 ∧ (h.update 0 [1, 2, 3]).1.bytes 0 = .ok [0, 3, 1, 2, 3]
    ∧ (h.fromStreamOne 0 [0, 3, 1, 2, 3, 9]).2 = .ok (5, [9])
    ∧ (h.fromStreamOne 0 [0, 3, 1, 2]).2 = .error .assertion := by decide

end Verif.Serial
