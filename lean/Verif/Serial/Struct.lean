import Verif.Serial.Framer
/-! C27: struct datagrams, net/arbiter/struct/__init__.py. The environment of a struct is not
part of this model: its array holds the time stamp, the sequence number and the other channels. -/
namespace Verif.Serial

open Verif.Wire

/-- Assigning primitives, possibly repeated, values that agree on repetitions. -/
theorem setAll_vals' (rs : List Nat) (vs : List Val) (h : Heap)
    (hc : ∀ x ∈ rs.zip vs, ∀ y ∈ rs.zip vs, x.1 = y.1 → x.2 = y.2)
    (hv : List.Forall₂ (fun r v => Spec.HasKind (h.prim r).kind v) rs vs) :
    rs.map (fun r => ((h.setAll rs vs).prim r).val) = vs := by
  induction rs generalizing vs h with
  | nil => cases hv; rfl
  | cons r rs ih =>
    cases hv with
    | cons h1 h2 =>
      rename_i v vs
      have h2' : List.Forall₂ (fun r' w => Spec.HasKind (((h.setPrim r v).prim r').kind) w) rs vs :=
        h2.imp (fun r' v' hv => by rw [setPrim_kind]; exact hv)
      have hi := ih vs (h.setPrim r v) (fun x hx y hy => hc x (by simp [hx]) y (by simp [hy])) h2'
      simp only [Heap.setAll, List.map_cons]
      rw [hi]
      congr 1
      by_cases hr : r ∈ rs
      · obtain ⟨n, hn, e⟩ := List.mem_iff_getElem.mp hr
        have hlen := h2.length_eq
        have h3 : (rs.map (fun r' => (((h.setPrim r v).setAll rs vs).prim r').val))[n]'(by simpa using hn)
            = vs[n]'(by omega) := by
          simp only [hi]
        rw [List.getElem_map, e] at h3
        rw [h3]
        refine (hc (r, v) (by simp) (r, vs[n]'(by omega)) ?_ rfl).symm
        rw [List.zip_cons_cons]
        refine List.mem_cons_of_mem _ (List.mem_iff_getElem.mpr ⟨n, by simp; omega, ?_⟩)
        simp [e]
      · rw [(setAll_frame rs vs (h.setPrim r v)).2.2.2.2 r hr]
        simp [Heap.setPrim, storeVal_of_hasKind h1]

/-- Updating an array with packed elements. -/
theorem update_cells (h : Heap) (hok : HeapOk h) (j : Nat) (b : Arr) (hj : (h.node j).body = .array b)
    (cs : List (Kind × Val)) (ht : ∀ c ∈ cs, Spec.HasKind c.1 c.2) (hf : cs.map Prod.fst = b.fmt)
    (hc : ∀ x ∈ b.prims.zip (cs.map Prod.snd), ∀ y ∈ b.prims.zip (cs.map Prod.snd), x.1 = y.1 → x.2 = y.2)
    (bs : Bytes) (hb : pack b.order 0 cs = .ok bs) :
    ∃ h', h.update j bs = (h', .ok b.size) ∧ cells h' b = cs ∧ HeapOk h' ∧ h'.node = h.node
      ∧ (∀ q, q ∉ b.prims → h'.prim q = h.prim q) := by
  have hbo := hok.arrays j b hj
  obtain ⟨bs', h1, h2, h3⟩ := pack_unpack b.order cs 0 ht
  rw [hb] at h1
  cases h1
  rw [hf] at h2 h3
  have hu' : unpackFrom b.order 0 b.fmt bs = .ok (cs.map Prod.snd) := by
    have := h3 []; rwa [List.append_nil] at this
  have hu : unpack b.order b.fmt bs = .ok (cs.map Prod.snd) := by
    rw [unpack, if_pos (by omega), hu']
  have hv := forall2_kinds h b hbo _ (unpackFrom_kinds b.order b.fmt 0 bs _ hu')
  obtain ⟨f1, -, -, f4, f5⟩ := setAll_frame b.prims (cs.map Prod.snd) h
  have hg := good_setAll h hok b.prims _ hv
  refine ⟨h.setAll b.prims (cs.map Prod.snd), by simp only [Heap.update, hj, hu], ?_, hg.1, f1, f5⟩
  have hvals := setAll_vals' b.prims _ h hc hv
  rw [← zip_cells _ b (hbo.mono hg.2), hvals, ← hf]
  exact zip_fst_snd _

/-! ### The receiver -/

/-- `TimestampedStruct.update_single`, struct/__init__.py 58–68. -/
def Heap.updateSingle (h : Heap) (j : Nat) (data : Bytes) : Heap × Except PyErr Int :=
  match (h.node j).body with
  | .array b =>
    match decodeInt .uint64 b.order (data.take 8) with
    | .error e => (h, .error e)
    | .ok t =>
      match h.update j data with
      | (h, .error e) => (h, .error e)
      | (h, .ok _) => (h, .ok t)
  | _ => (h, .error .attribute)

/-- What a handler sees of the struct. -/
def Heap.observe (h : Heap) (j : Nat) : List (Kind × Val) :=
  match (h.node j).body with
  | .array b => cells h b
  | _ => []

/-- The loop of `process_datagram`, struct/__init__.py 79–81, with a consumer that looks at the
struct at every step (182–183). -/
def Heap.processLoop (h : Heap) (j size : Nat) : Nat → Bytes → Heap × List (Int × List (Kind × Val)) × Except PyErr Unit
  | 0, _ => (h, [], .ok ())
  | n + 1, s =>
    match h.updateSingle j (s.take size) with
    | (h, .error e) => (h, [], .error e)
    | (h, .ok t) =>
      let (h', obs, r) := h.processLoop j size n (s.drop size)
      (h', (t, h.observe j) :: obs, r)

/-- `process_datagram`, struct/__init__.py 70–81. -/
def Heap.processDatagram (h : Heap) (j : Nat) (data : Bytes) :
    Heap × List (Int × List (Kind × Val)) × Except PyErr Unit :=
  match (h.node j).body with
  | .array b =>
    if b.size = 0 then (h, [], .error .zeroDivision)
    else if data.length % b.size = 0 then h.processLoop j b.size (data.length / b.size) data
    else (h, [], .error .assertion)
  | _ => (h, [], .error .attribute)

/-- Receiving several datagrams, each on its own. An exception would end the reader of a connection: `Net/Telemetry`. -/
def Heap.receive (h : Heap) (j : Nat) : List Bytes → Heap × List (Int × List (Kind × Val)) × List (Except PyErr Unit)
  | [] => (h, [], [])
  | d :: rest =>
    let (h, obs, r) := h.processDatagram j d
    let (h, obs', rs) := h.receive j rest
    (h, obs ++ obs', r :: rs)

/-! ### The sender -/

/-- `poll`, struct/__init__.py 83–87. -/
def Heap.poll (h : Heap) (ts seq : Nat) (now : Int) : Heap :=
  let h := h.setPrim ts (.int now)
  match (h.prim seq).val with
  | .int v => h.setPrim seq (.int (v + 1))
  | _ => h

/-- What happens at the sender: a channel changes value, or `UdpStructTransceiver.capture`
(struct/__init__.py 156–166) runs at a time. -/
inductive TxOp where
  | set (r : Nat) (v : Val)
  | capture (now : Int) (sample flush : Bool)

/-- The sender's objects and framer after some operations, and the datagrams sent. -/
def txRun (ts seq : Nat) : Heap × Framer → List TxOp → (Heap × Framer) × List Bytes
  | st, [] => (st, [])
  | (h, f), .set r v :: rest => txRun ts seq (h.setPrim r v, f) rest
  | (h, f), .capture now sample flush :: rest =>
    let h := if sample then h.poll ts seq now else h
    match f.capture h sample flush with
    | (f, .ok (some b)) =>
      let (st, sent) := txRun ts seq (h, f) rest
      (st, b :: sent)
    | (f, _) => txRun ts seq (h, f) rest

/-- The samples taken: the elements of the array right after each poll. -/
def txLog (ts seq i : Nat) : Heap → List TxOp → List (List (Kind × Val))
  | _, [] => []
  | h, .set r v :: rest => txLog ts seq i (h.setPrim r v) rest
  | h, .capture now true _ :: rest =>
    (h.poll ts seq now).observe i :: txLog ts seq i (h.poll ts seq now) rest
  | h, .capture _ false _ :: rest => txLog ts seq i h rest

/-- The times at which samples were taken. -/
def txTimes : List TxOp → List Int
  | [] => []
  | .capture now true _ :: rest => now :: txTimes rest
  | _ :: rest => txTimes rest

/-- Values given to channels are ones their primitives can hold. -/
def TxOk (h : Heap) (ops : List TxOp) : Prop :=
  ∀ r v, TxOp.set r v ∈ ops → Spec.HasKind (h.prim r).kind (storeVal (h.prim r).kind v)

/-- The array of a time-stamped struct, struct/__init__.py 36–56: the time stamp and the sequence
number come first. -/
structure IsStruct (h : Heap) (i ts seq : Nat) (a : Arr) : Prop where
  body : (h.node i).body = .array a
  next : (h.node i).next = none
  prims : ∃ more, a.prims = ts :: seq :: more ∧ ts ∉ more ∧ seq ∉ more
  ne : ts ≠ seq
  kts : (h.prim ts).kind = .int .uint64
  kseq : (h.prim seq).kind = .int .uint16
  order : a.order ≠ .native

/-! ### Proofs -/

theorem poll_spec (h : Heap) (hk : HeapOk h) (ts seq : Nat) (now : Int)
    (kts : (h.prim ts).kind = .int .uint64) (kseq : (h.prim seq).kind = .int .uint16) :
    HeapOk (h.poll ts seq now) ∧ (h.poll ts seq now).node = h.node
    ∧ (∀ q, ((h.poll ts seq now).prim q).kind = (h.prim q).kind) ∧ (h.poll ts seq now).nn = h.nn
    ∧ (ts ≠ seq → ((h.poll ts seq now).prim ts).val = .int (wrap .uint64 now)) := by
  have hst : ∀ (k : IntKind) (v : Int), Spec.HasKind (.int k) (storeVal (.int k) (.int v)) := by
    intro k v
    simp only [storeVal, Spec.HasKind]
    exact (packable_iff _ _).mp (wrap_packable k v)
  have g1 := (good_setPrim h hk ts (.int now) (by rw [kts]; exact hst _ _)).1
  have k1 : ∀ q, ((h.setPrim ts (.int now)).prim q).kind = (h.prim q).kind := setPrim_kind h ts _
  have htsv : ((h.setPrim ts (.int now)).prim ts).val = .int (wrap .uint64 now) := by
    simp [Heap.setPrim, kts, storeVal]
  unfold Heap.poll
  dsimp only
  cases hv : ((h.setPrim ts (.int now)).prim seq).val with
  | int v =>
    dsimp only
    refine ⟨(good_setPrim _ g1 seq _ (by rw [k1, kseq]; exact hst _ _)).1, rfl, fun q => by
      rw [setPrim_kind, k1], rfl, fun hne => ?_⟩
    rw [setPrim_ne _ _ _ _ hne]; exact htsv
  | bool b => exact ⟨g1, rfl, k1, rfl, fun _ => htsv⟩
  | f32 b => exact ⟨g1, rfl, k1, rfl, fun _ => htsv⟩
  | f64 b => exact ⟨g1, rfl, k1, rfl, fun _ => htsv⟩

/-- The framer's view of the sender's operations. -/
def txHist (ts seq : Nat) : Heap → List TxOp → List (Heap × Bool × Bool)
  | _, [] => []
  | h, .set r v :: rest => txHist ts seq (h.setPrim r v) rest
  | h, .capture now sample flush :: rest =>
    let h := if sample then h.poll ts seq now else h
    (h, sample, flush) :: txHist ts seq h rest

theorem txRun_eq (ts seq : Nat) (ops : List TxOp) (h : Heap) (f : Framer) :
    (txRun ts seq (h, f) ops).1.2 = (f.run (txHist ts seq h ops)).1
    ∧ (txRun ts seq (h, f) ops).2 = frames (f.run (txHist ts seq h ops)).2 := by
  induction ops generalizing h f with
  | nil => exact ⟨rfl, rfl⟩
  | cons op rest ih =>
    cases op with
    | set r v => exact ih (h.setPrim r v) f
    | capture now sample flush =>
      simp only [txRun, txHist, Framer.run]
      cases hc : f.capture (if sample = true then h.poll ts seq now else h) sample flush with
      | mk f' r =>
        obtain ⟨i1, i2⟩ := ih (if sample = true then h.poll ts seq now else h) f'
        cases r with
        | error e => exact ⟨i1, by simp only [frames]; exact i2⟩
        | ok o =>
          cases o with
          | none => exact ⟨i1, by simp only [frames]; exact i2⟩
          | some b => exact ⟨i1, by simp only [frames]; rw [i2]⟩

/-- A sample and its encoding. -/
structure Enc (a : Arr) (b : Bytes) (cs : List (Kind × Val)) : Prop where
  pack : Serial.pack a.order 0 cs = .ok b
  typed : ∀ c ∈ cs, Spec.HasKind c.1 c.2
  fmt : cs.map Prod.fst = a.fmt
  time : ∃ t tl, cs = (.int .uint64, .int t) :: tl
  src : ∃ h, cs = cells h a

/-- The heap still holds the same struct. -/
def Same (h h' : Heap) : Prop := HeapOk h' ∧ h'.node = h.node ∧ ∀ q, (h'.prim q).kind = (h.prim q).kind

theorem enc_of_same (h h' : Heap) (i ts seq : Nat) (a : Arr) (hs : IsStruct h i ts seq a) (hsm : Same h h') :
    ∃ b, h'.bytes i = .ok b ∧ b.length = a.size ∧ Enc a b (cells h' a) := by
  obtain ⟨hk, hn, hkd⟩ := hsm
  have hb : (h'.node i).body = .array a := by rw [hn]; exact hs.body
  have ha := hk.arrays i a hb
  obtain ⟨b, h1, h2, h3⟩ := pack_unpack a.order (cells h' a) 0 (cells_typed h' hk.typed a)
  rw [fmt_cells h' a ha] at h2
  have hlen : b.length = a.size := by rw [calcsize_sum a.order hs.order, ← ha.size] at h2; omega
  refine ⟨b, by rw [bytes_array h' i a ha hb, h1], hlen, h1, cells_typed h' hk.typed a, fmt_cells h' a ha, ?_, h', rfl⟩
  obtain ⟨more, e1, -, -⟩ := hs.prims
  have ht := hk.typed ts
  have hkt : (h'.prim ts).kind = .int .uint64 := by rw [hkd]; exact hs.kts
  rw [hkt] at ht
  cases hv : (h'.prim ts).val with
  | int t => exact ⟨t, _, by rw [cells, e1, List.map_cons, hkt, hv]⟩
  | bool x => rw [hv] at ht; exact ht.elim
  | f32 x => rw [hv] at ht; exact ht.elim
  | f64 x => rw [hv] at ht; exact ht.elim

theorem txHist_spec (h0 : Heap) (i ts seq : Nat) (a : Arr) (hs : IsStruct h0 i ts seq a) (ops : List TxOp)
    (h : Heap) (hsm : Same h0 h) (hok : TxOk h0 ops) :
    Uniform i a.size (txHist ts seq h ops)
    ∧ List.Forall₂ (Enc a) (sampled i (txHist ts seq h ops)) (txLog ts seq i h ops)
    ∧ (txLog ts seq i h ops).map List.head? = (txTimes ops).map (fun t => some (.int .uint64, .int (wrap .uint64 t))) := by
  induction ops generalizing h with
  | nil => exact ⟨fun c hc => (by cases hc), .nil, rfl⟩
  | cons op rest ih =>
    have hrest : TxOk h0 rest := fun r v hm => hok r v (List.mem_cons_of_mem _ hm)
    obtain ⟨hk, hn, hkd⟩ := hsm
    cases op with
    | set r v =>
      refine ih (h.setPrim r v) ⟨(good_setPrim h hk r v ?_).1, hn, fun q => by rw [setPrim_kind, hkd]⟩ hrest
      rw [hkd]; exact hok r v List.mem_cons_self
    | capture now sample flush =>
      obtain ⟨p1, p2, p3, p4, p5⟩ := poll_spec h hk ts seq now (by rw [hkd]; exact hs.kts) (by rw [hkd]; exact hs.kseq)
      have hsm1 : Same h0 (h.poll ts seq now) := ⟨p1, by rw [p2, hn], fun q => by rw [p3, hkd]⟩
      cases sample with
      | false =>
        obtain ⟨i1, i2, i3⟩ := ih h ⟨hk, hn, hkd⟩ hrest
        obtain ⟨b, b1, b2, b3⟩ := enc_of_same h0 h i ts seq a hs ⟨hk, hn, hkd⟩
        refine ⟨?_, i2, i3⟩
        intro c hc
        simp only [txHist, Bool.false_eq_true, if_false] at hc
        rcases List.mem_cons.mp hc with rfl | hc
        · exact ⟨b, b1, b2⟩
        · exact i1 c hc
      | true =>
        obtain ⟨i1, i2, i3⟩ := ih _ hsm1 hrest
        obtain ⟨b, b1, b2, b3⟩ := enc_of_same h0 _ i ts seq a hs hsm1
        have hobs : (h.poll ts seq now).observe i = cells (h.poll ts seq now) a := by
          simp only [Heap.observe, hsm1.2.1, hs.body]
        refine ⟨?_, ?_, ?_⟩
        · intro c hc
          simp only [txHist, if_true] at hc
          rcases List.mem_cons.mp hc with rfl | hc
          · exact ⟨b, b1, b2⟩
          · exact i1 c hc
        · simp only [txHist, if_true, sampled, b1, txLog, hobs]
          exact .cons b3 i2
        · simp only [txLog, txTimes, List.map_cons, hobs, i3]
          congr 1
          obtain ⟨more, e1, -, -⟩ := hs.prims
          rw [cells, e1, List.map_cons, List.head?_cons, p5 hs.ne, p3, hkd, hs.kts]

/-- Elements repeated in the receiver's array are repeated in the sender's. -/
def Compat (a b : Arr) : Prop :=
  ∀ x ∈ b.prims.zip a.prims, ∀ y ∈ b.prims.zip a.prims, x.1 = y.1 → x.2 = y.2

/-- Which holds when the receiver's array repeats nothing. -/
theorem compat_of_nodup (a b : Arr) (hb : b.prims.Nodup) : Compat a b := by
  intro x hx y hy hxy
  obtain ⟨m, hm, rfl⟩ := List.getElem_of_mem hx
  obtain ⟨n, hn, rfl⟩ := List.getElem_of_mem hy
  rw [List.getElem_zip, List.getElem_zip] at hxy
  have := (List.Nodup.getElem_inj_iff hb).mp hxy
  subst this
  rfl

theorem zip_map_mem {α β γ : Type} (l : List α) (m : List β) (f : β → γ) (x : α × γ) (hx : x ∈ l.zip (m.map f)) :
    ∃ y, (x.1, y) ∈ l.zip m ∧ f y = x.2 := by
  rw [List.zip_map_right] at hx
  obtain ⟨⟨p, q⟩, h1, h2⟩ := List.mem_map.mp hx
  cases h2
  exact ⟨q, h1, rfl⟩

/-- One sample received. -/
theorem updateSingle_spec (h : Heap) (hk : HeapOk h) (j : Nat) (a b : Arr) (hj : (h.node j).body = .array b)
    (hfmt : b.fmt = a.fmt) (hord : b.order = a.order) (hco : Compat a b)
    (bs : Bytes) (cs : List (Kind × Val)) (he : Enc a bs cs) :
    ∃ h' t, h.updateSingle j bs = (h', .ok t) ∧ h'.observe j = cs ∧ HeapOk h' ∧ h'.node = h.node
      ∧ cs.head? = some (.int .uint64, .int t) := by
  obtain ⟨t, tl, et⟩ := he.time
  obtain ⟨hs, es⟩ := he.src
  obtain ⟨h', u1, u2, u3, u4, u5⟩ := update_cells h hk j b hj cs he.typed (by rw [he.fmt, hfmt]) (by
    intro x hx y hy hxy
    rw [es, cells, List.map_map] at hx hy
    obtain ⟨x', hx1, hx2⟩ := zip_map_mem _ _ _ x hx
    obtain ⟨y', hy1, hy2⟩ := zip_map_mem _ _ _ y hy
    have := hco _ hx1 _ hy1 hxy
    dsimp only at this
    rw [← hx2, ← hy2, this]) bs (by rw [hord]; exact he.pack)
  have hdec : decodeInt .uint64 b.order (bs.take 8) = .ok t := by
    have hp := he.pack
    rw [et] at hp
    simp only [pack] at hp
    have hpad : padLen a.order 0 (Kind.int .uint64).size = 0 := by
      simp [padLen]
    rw [hpad] at hp
    have htt := he.typed (.int .uint64, .int t) (by rw [et]; exact List.mem_cons_self)
    obtain ⟨b8, e1, e2, e3⟩ := (C01_encode_decode .uint64 a.order t).1 htt
    have e1' : encode (.int .uint64) a.order (.int t) = .ok b8 := e1
    rw [e1'] at hp
    dsimp only at hp
    split at hp
    · cases hp
    · rename_i bs' _
      injection hp with hp
      have e2' : b8.length = 8 := e2
      rw [← hp, hord]
      simp only [List.replicate_zero, List.nil_append, List.take_append_of_le_length (Nat.le_of_eq e2'.symm)]
      rw [List.take_of_length_le (by omega)]
      exact e3
  refine ⟨h', t, ?_, ?_, u3, u4, by rw [et]; rfl⟩
  · simp only [Heap.updateSingle, hj, hdec, u1]
  · simp only [Heap.observe, u4, hj, u2]

/-- A datagram of several samples. -/
theorem processLoop_spec (j : Nat) (a b : Arr) (hfmt : b.fmt = a.fmt) (hord : b.order = a.order)
    (hco : Compat a b) (bss : List Bytes) (css : List (List (Kind × Val)))
    (he : List.Forall₂ (Enc a) bss css) (hlen : ∀ x ∈ bss, x.length = b.size)
    (h : Heap) (hk : HeapOk h) (hj : (h.node j).body = .array b) :
    ∃ h' obs, h.processLoop j b.size bss.length bss.flatten = (h', obs, .ok ()) ∧ obs.map Prod.snd = css
      ∧ (∀ o ∈ obs, o.2.head? = some (.int .uint64, .int o.1)) ∧ HeapOk h' ∧ h'.node = h.node := by
  induction he generalizing h with
  | nil => exact ⟨h, [], rfl, rfl, fun o ho => (by cases ho), hk, rfl⟩
  | @cons x cs bss css hx hrest ih =>
    obtain ⟨h1, t, u1, u2, u3, u4, u5⟩ := updateSingle_spec h hk j a b hj hfmt hord hco x cs hx
    have hxl := hlen x List.mem_cons_self
    have ht : (x ++ bss.flatten).take b.size = x := by rw [← hxl]; simp
    have hd : (x ++ bss.flatten).drop b.size = bss.flatten := by rw [← hxl]; simp
    obtain ⟨h', obs, r1, r2, r3, r4, r5⟩ := ih (fun y hy => hlen y (List.mem_cons_of_mem _ hy)) h1 u3 (by rw [u4]; exact hj)
    refine ⟨h', (t, cs) :: obs, ?_, by simp [r2], ?_, r4, by rw [r5, u4]⟩
    · rw [List.length_cons, List.flatten_cons, Heap.processLoop, ht, u1]
      dsimp only
      rw [hd, r1, u2]
    · intro o ho
      rcases List.mem_cons.mp ho with rfl | ho
      · exact u5
      · exact r3 o ho

theorem forall2_split {α β : Type} {R : α → β → Prop} (l1 l2 : List α) (m : List β) (h : List.Forall₂ R (l1 ++ l2) m) :
    ∃ m1 m2, m = m1 ++ m2 ∧ List.Forall₂ R l1 m1 ∧ List.Forall₂ R l2 m2 := by
  induction l1 generalizing m with
  | nil => exact ⟨[], m, rfl, .nil, h⟩
  | cons x xs ih =>
    cases h with
    | cons h1 h2 =>
      obtain ⟨m1, m2, e1, e2, e3⟩ := ih _ h2
      exact ⟨_ :: m1, m2, by rw [e1]; rfl, .cons h1 e2, e3⟩

/-- All datagrams. -/
theorem receive_spec (j : Nat) (a b : Arr) (hfmt : b.fmt = a.fmt) (hord : b.order = a.order)
    (hco : Compat a b) (hpos : 0 < b.size) (groups : List (List Bytes))
    (css : List (List (Kind × Val))) (he : List.Forall₂ (Enc a) groups.flatten css)
    (hlen : ∀ x ∈ groups.flatten, x.length = b.size) (h : Heap) (hk : HeapOk h) (hj : (h.node j).body = .array b) :
    ∃ h' obs, h.receive j (groups.map List.flatten) = (h', obs, groups.map (fun _ => .ok ())) ∧ obs.map Prod.snd = css
      ∧ (∀ o ∈ obs, o.2.head? = some (.int .uint64, .int o.1)) := by
  induction groups generalizing h css with
  | nil => cases he; exact ⟨h, [], rfl, rfl, fun o ho => by cases ho⟩
  | cons g groups ih =>
    rw [List.flatten_cons] at he hlen
    obtain ⟨m1, m2, e1, e2, e3⟩ := forall2_split _ _ _ he
    obtain ⟨h1, obs1, r1, r2, r3, r4, r5⟩ := processLoop_spec j a b hfmt hord hco g m1 e2
      (fun x hx => hlen x (List.mem_append_left _ hx)) h hk hj
    obtain ⟨h', obs, s1, s2, s3⟩ := ih m2 e3 (fun x hx => hlen x (List.mem_append_right _ hx)) h1 r4
      (by rw [r5]; exact hj)
    have hgl := flatten_length b.size g (fun x hx => hlen x (List.mem_append_left _ hx))
    have hd : h.processDatagram j g.flatten = (h1, obs1, .ok ()) := by
      have hz : ¬ b.size = 0 := by omega
      simp only [Heap.processDatagram, hj, hz, if_false, hgl, Nat.mul_mod_left, if_true,
        Nat.mul_div_cancel _ hpos, r1]
    refine ⟨h', obs1 ++ obs, ?_, by rw [List.map_append, r2, s2, e1], ?_⟩
    · simp only [List.map_cons, Heap.receive, hd, s1]
    · intro o ho
      rcases List.mem_append.mp ho with ho | ho
      · exact r3 o ho
      · exact s3 o ho

/-- C27. Whatever the sender does — channels set to new values, samples captured, flushes, in any
order, at any times, with any accepted MTU — the datagrams it sends are all accepted by a receiver
with a struct of the same layout, which observes exactly the samples in order, each with all its
values and with its own time stamp; only samples still pending in the framer are missing, and none
are after a flush. -/
theorem C27_delivery (h0 : Heap) (hk : HeapOk h0) (i ts seq : Nat) (a : Arr) (hs : IsStruct h0 i ts seq a)
    (f0 f : Framer) (mtu overhead : Int) (n : Nat) (hinst : f0.inst = i)
    (hset : f0.setMtu h0 mtu overhead = (f, .ok n)) (ops : List TxOp) (hok : TxOk h0 ops)
    (hr : Heap) (hrk : HeapOk hr) (j : Nat) (b : Arr) (hj : (hr.node j).body = .array b)
    (hfmt : b.fmt = a.fmt) (hord : b.order = a.order) (hco : Compat a b) :
    ∃ hr' obs pend, hr.receive j (txRun ts seq (h0, f) ops).2
        = (hr', obs, (txRun ts seq (h0, f) ops).2.map (fun _ => .ok ()))
      ∧ obs.map Prod.snd ++ pend = txLog ts seq i h0 ops
      ∧ (∀ o ∈ obs, o.2.head? = some (.int .uint64, .int o.1))
      ∧ (txLog ts seq i h0 ops).map List.head? = (txTimes ops).map (fun t => some (.int .uint64, .int (wrap .uint64 t)))
      ∧ ((txRun ts seq (h0, f) ops).1.2.raw = [] → pend = []) := by
  subst hinst
  have ha := hk.arrays _ a hs.body
  have hb := hrk.arrays j b hj
  obtain ⟨L, l1, l2, l3, l4, l5, l6⟩ := setMtu_spec h0 f0 mtu overhead n (by rw [hset])
  rw [hset] at l6
  dsimp only at l6
  subst l6
  -- the chain has a single member
  have hLsz : L = a.size := by
    have hw : h0.chain f0.inst = .ok [f0.inst] := by
      refine (chain_iff h0 _ _).mpr ⟨rfl, hs.next, ?_⟩
      by_contra hlt
      have hlt' : h0.nn ≤ f0.inst := by simp at hlt; omega
      exact (hk.unused _ hlt').2 a hs.body
    simp only [Heap.length, hw, Except.map, List.map_cons, List.map_nil, List.sum_cons, List.sum_nil, hs.body,
      Body.size] at l1
    injection l1 with l1
    omega
  subst hLsz
  obtain ⟨t1, t2, t3⟩ := txHist_spec h0 f0.inst ts seq a hs ops h0 ⟨hk, rfl, fun _ => rfl⟩ hok
  obtain ⟨groups, pend, g1, g2, g3, g4, g5, g6, g7⟩ := run_spec a.size l2 (txHist ts seq h0 ops)
    ⟨f0.inst, n, 0, []⟩ [] t1 ⟨rfl, rfl, l3⟩ (fun b hb => by cases hb)
  rw [List.nil_append] at g5
  dsimp only at g5
  rw [← g5] at t2
  obtain ⟨m1, m2, e1, e2, e3⟩ := forall2_split _ _ _ t2
  have hsz : b.size = a.size := by rw [hb.size, ha.size, hfmt]
  obtain ⟨hr', obs, r1, r2, r3⟩ := receive_spec j a b hfmt hord hco (by omega) groups m1 e2
    (fun x hx => by rw [hsz]; exact g7 x (List.mem_append_left _ hx)) hr hrk hj
  obtain ⟨x1, x2⟩ := txRun_eq ts seq ops h0 ⟨f0.inst, n, 0, []⟩
  refine ⟨hr', obs, m2, ?_, by rw [r2, e1], r3, t3, ?_⟩
  · rw [x2, g1, r1, List.map_map]
    rfl
  · intro hraw
    rw [x1] at hraw
    obtain ⟨p1, p2, p3⟩ := g2
    rw [hraw] at p1
    have hlen := flatten_length a.size pend (fun b hb => g7 b (List.mem_append_right _ hb))
    rw [← p1] at hlen
    have : pend = [] := by
      cases pend with
      | nil => rfl
      | cons x xs =>
        simp only [List.length_nil, List.length_cons] at hlen
        exact absurd hlen.symm (Nat.ne_of_gt (Nat.mul_pos (Nat.succ_pos xs.length) l2))
    subst this
    cases e3
    rfl

/-- C27. A datagram whose length is not a multiple of the struct's size is rejected with nothing
changed or observed. -/
theorem C27_reject (h : Heap) (j : Nat) (b : Arr) (hj : (h.node j).body = .array b) (hp : 0 < b.size) (data : Bytes)
    (hd : ¬ b.size ∣ data.length) : h.processDatagram j data = (h, [], .error .assertion) := by
  have h1 : ¬ b.size = 0 := by omega
  have h2 : ¬ data.length % b.size = 0 := fun hx => hd (Nat.dvd_of_mod_eq_zero hx)
  simp only [Heap.processDatagram, hj, h1, h2, if_false]

/-- C27. Any other datagram is accepted, whatever its content. -/
theorem C27_accept (h : Heap) (hk : HeapOk h) (j : Nat) (b : Arr) (hj : (h.node j).body = .array b) (hp : 8 ≤ b.size)
    (ho : b.order ≠ .native) (data : Bytes) (hd : b.size ∣ data.length) :
    ∃ h' obs, h.processDatagram j data = (h', obs, .ok ()) ∧ obs.length * b.size = data.length := by
  have key : ∀ (n : Nat) (h : Heap) (data : Bytes), HeapOk h → (h.node j).body = .array b → data.length = n * b.size →
      ∃ h' obs, h.processLoop j b.size n data = (h', obs, .ok ()) ∧ obs.length = n := by
    intro n
    induction n with
    | zero => intro h data _ _ _; exact ⟨h, [], rfl, rfl⟩
    | succ n ih =>
      intro h data hk hj hl
      have hl' : data.length = n * b.size + b.size := by rw [hl, Nat.add_mul]; omega
      have hb := hk.arrays j b hj
      have htl : (data.take b.size).length = b.size := by rw [List.length_take]; omega
      obtain ⟨t, ht, -⟩ := (C02_decode_encode .uint64 b.order ((data.take b.size).take 8)).1 (by
        show _ = 8
        rw [List.length_take]; omega)
      have hu := (C20_update_length h hk j b hj ho (data.take b.size)).2 htl
      have hjn : j < h.nn := by
        by_contra hlt
        exact (hk.unused j (by omega)).2 b hj
      have hg := good_update h hk j hjn (data.take b.size)
      have hnode : (h.update j (data.take b.size)).1.node = h.node := by
        unfold Heap.update
        rw [hj]
        dsimp only
        cases unpack b.order b.fmt (data.take b.size) with
        | error e => rfl
        | ok vs => exact (setAll_frame _ _ _).1
      cases hup : h.update j (data.take b.size) with
      | mk h1 r =>
        rw [hup] at hu hg hnode
        dsimp only at hu hnode
        subst hu
        obtain ⟨h', obs, r1, r2⟩ := ih h1 (data.drop b.size) hg.1 (by rw [hnode]; exact hj) (by
          rw [List.length_drop]; omega)
        refine ⟨h', (t, h1.observe j) :: obs, ?_, ?_⟩
        · simp only [Heap.processLoop, Heap.updateSingle, hj, ht, hup, r1]
        · simp [r2]
  obtain ⟨m, hm⟩ := hd
  have hm' : data.length = m * b.size := by rw [hm, Nat.mul_comm]
  obtain ⟨h', obs, r1, r2⟩ := key m h data hk hj hm'
  have h1 : ¬ b.size = 0 := by omega
  refine ⟨h', obs, ?_, by rw [r2, hm']⟩
  simp only [Heap.processDatagram, hj, h1, if_false, hm', Nat.mul_mod_left, if_true,
    Nat.mul_div_cancel _ (show 0 < b.size by omega), r1]

/-- C27. Taking a sample stamps the time, counts up the 16-bit sequence number and touches no other
channel. -/
theorem C27_poll (h : Heap) (ts seq : Nat) (now v : Int) (hne : ts ≠ seq)
    (kts : (h.prim ts).kind = .int .uint64) (kseq : (h.prim seq).kind = .int .uint16) (hv : (h.prim seq).val = .int v) :
    ((h.poll ts seq now).prim ts).val = .int (now % 2 ^ 64)
    ∧ ((h.poll ts seq now).prim seq).val = .int ((v + 1) % 2 ^ 16)
    ∧ ∀ r, r ≠ ts → r ≠ seq → (h.poll ts seq now).prim r = h.prim r := by
  have hs : ((h.setPrim ts (.int now)).prim seq) = h.prim seq := setPrim_ne _ _ _ _ (Ne.symm hne)
  have hp : h.poll ts seq now = (h.setPrim ts (.int now)).setPrim seq (.int (v + 1)) := by
    simp only [Heap.poll, hs, hv]
  rw [hp]
  refine ⟨?_, ?_, fun r h1 h2 => by rw [setPrim_ne _ _ _ _ h2, setPrim_ne _ _ _ _ h1]⟩
  · rw [setPrim_ne _ _ _ _ hne]
    simp [Heap.setPrim, kts, storeVal, wrap, ofPattern, toPattern, IntKind.signed, IntKind.size]
    omega
  · simp [Heap.setPrim, kseq, storeVal, wrap, ofPattern, toPattern, IntKind.signed, IntKind.size, Ne.symm hne]
    omega

/-- C27. As long as nobody else assigns the sequence number, the samples carry consecutive numbers
modulo 2^16. -/
theorem C27_sequence (h0 : Heap) (i ts seq : Nat) (a : Arr) (hs : IsStruct h0 i ts seq a) (ops : List TxOp)
    (hset : ∀ r v, TxOp.set r v ∈ ops → r ≠ seq) (v0 : Int) (h : Heap) (hn : h.node = h0.node)
    (hkd : ∀ q, (h.prim q).kind = (h0.prim q).kind) (hv : (h.prim seq).val = .int v0) :
    ∀ (n : Nat) (cs : List (Kind × Val)), (txLog ts seq i h ops)[n]? = some cs →
      cs[1]? = some (.int .uint16, .int ((v0 + 1 + n) % 2 ^ 16)) := by
  induction ops generalizing h v0 with
  | nil => intro n cs hc; simp [txLog] at hc
  | cons op rest ih =>
    have hrest : ∀ r v, TxOp.set r v ∈ rest → r ≠ seq := fun r v hm => hset r v (List.mem_cons_of_mem _ hm)
    cases op with
    | set r v =>
      refine ih hrest v0 (h.setPrim r v) hn (fun q => by rw [setPrim_kind, hkd]) ?_
      rw [setPrim_ne _ _ _ _ (Ne.symm (hset r v List.mem_cons_self))]; exact hv
    | capture now sample flush =>
      cases sample with
      | false => exact ih hrest v0 h hn hkd hv
      | true =>
        obtain ⟨p1, p2, p3⟩ := C27_poll h ts seq now v0 hs.ne (by rw [hkd]; exact hs.kts) (by rw [hkd]; exact hs.kseq) hv
        have hpn : (h.poll ts seq now).node = h0.node := by
          rw [← hn]
          unfold Heap.poll
          dsimp only
          split <;> rfl
        have hpk : ∀ q, ((h.poll ts seq now).prim q).kind = (h0.prim q).kind := by
          intro q
          rw [← hkd]
          unfold Heap.poll
          dsimp only
          split
          · rw [setPrim_kind, setPrim_kind]
          · rw [setPrim_kind]
        intro n cs hc
        cases n with
        | zero =>
          simp only [txLog, List.getElem?_cons_zero, Option.some.injEq] at hc
          subst hc
          obtain ⟨more, e1, -, -⟩ := hs.prims
          simp only [Heap.observe, hpn, hs.body, cells, e1, List.map_cons, List.getElem?_cons_succ,
            List.getElem?_cons_zero, hpk, hs.kseq, p2]
          simp
        | succ n =>
          simp only [txLog, List.getElem?_cons_succ] at hc
          have := ih hrest ((v0 + 1) % 2 ^ 16) _ hpn hpk p2 n cs hc
          rw [this]
          congr 3
          push_cast
          omega

/-- A struct of a time stamp, a sequence number and a byte. -/
def structHeap : Heap :=
  let h := (Heap.empty.newPrim (.int .uint64) (.int 0)).1
  let h := (h.newPrim (.int .uint16) (.int 0)).1
  let h := (h.newPrim (.int .uint8) (.int 0)).1
  (h.newArray .network [0, 1, 2]).1

example : (txRun 0 1 (structHeap, (Framer.new structHeap 0 22).1)
      [.capture 5 true false, .set 2 (.int 9), .capture 6 true false, .capture 7 true false, .capture 8 false true]).2
    = [[0, 0, 0, 0, 0, 0, 0, 5, 0, 1, 0, 0, 0, 0, 0, 0, 0, 0, 6, 0, 2, 9], [0, 0, 0, 0, 0, 0, 0, 7, 0, 3, 9]] := by
  decide +kernel

example : ∃ a, IsStruct structHeap 0 0 1 a ∧ Compat a a := by
  refine ⟨_, ⟨rfl, rfl, ⟨[2], rfl, by decide, by decide⟩, by decide, rfl, rfl, by decide⟩, ?_⟩
  intro x hx y hy hxy
  have h1 : ∀ z ∈ ([0, 1, 2] : List Nat).zip [0, 1, 2], z.1 = z.2 := by decide
  rw [← h1 x hx, ← h1 y hy, hxy]

end Verif.Serial
