import Verif.Serial.Copy
/-! C23: operations outside a set of objects leave those objects alone. -/
namespace Verif.Serial

open Verif.Wire

section
variable (NA PA : Nat → Prop)

/-- An array referring to nothing inside the set. -/
def OutBody (b : Body) : Prop :=
  ∀ a, b = .array a → (∀ r ∈ a.prims, ¬ PA r) ∧ (∀ f ∈ a.frags, ¬ NA f)

/-- The serializables `NA` and primitives `PA` exist, and nothing outside refers to them. -/
structure Apart (h : Heap) : Prop where
  bn : ∀ k, NA k → k < h.nn
  bp : ∀ q, PA q → q < h.np
  body : ∀ k, ¬ NA k → OutBody NA PA (h.node k).body
  next : ∀ k j, ¬ NA k → (h.node k).next = some j → ¬ NA j

/-- Nothing inside the set changed. -/
structure Keep (h h' : Heap) : Prop where
  node : ∀ k, NA k → h'.node k = h.node k
  prim : ∀ q, PA q → h'.prim q = h.prim q
  nn : h.nn ≤ h'.nn

/-- The set is still apart and unchanged. -/
def Sep (h h' : Heap) : Prop := Apart NA PA h' ∧ Keep NA PA h h'
end

variable {NA PA : Nat → Prop}

theorem Keep.refl (h : Heap) : Keep NA PA h h := ⟨fun _ _ => rfl, fun _ _ => rfl, Nat.le_refl _⟩

theorem Sep.trans {a b c : Heap} (h1 : Sep NA PA a b) (h2 : Sep NA PA b c) : Sep NA PA a c :=
  ⟨h2.1, fun k hk => by rw [h2.2.node k hk, h1.2.node k hk], fun q hq => by rw [h2.2.prim q hq, h1.2.prim q hq],
   Nat.le_trans h1.2.nn h2.2.nn⟩

theorem sep_refl (h : Heap) (ha : Apart NA PA h) : Sep NA PA h h := ⟨ha, Keep.refl h⟩

theorem sep_setPrim (h : Heap) (ha : Apart NA PA h) (r : Nat) (v : Val) (hr : ¬ PA r) :
    Sep NA PA h (h.setPrim r v) :=
  ⟨⟨ha.bn, ha.bp, ha.body, ha.next⟩, fun _ _ => rfl,
    fun q hq => by
      have : q ≠ r := fun e => hr (e ▸ hq)
      simp [Heap.setPrim, this], Nat.le_refl _⟩

theorem sep_setAll (rs : List Nat) (vs : List Val) (h : Heap) (ha : Apart NA PA h) (hr : ∀ r ∈ rs, ¬ PA r) :
    Sep NA PA h (h.setAll rs vs) := by
  induction rs generalizing h vs with
  | nil => unfold Heap.setAll; exact sep_refl h ha
  | cons r rs ih =>
    cases vs with
    | nil => exact sep_refl h ha
    | cons v vs =>
      have h1 := sep_setPrim h ha r v (hr r List.mem_cons_self)
      exact h1.trans (ih vs _ h1.1 (fun q hq => hr q (List.mem_cons_of_mem _ hq)))

theorem sep_newPrim (h : Heap) (ha : Apart NA PA h) (k : Kind) (v : Val) : Sep NA PA h (h.newPrim k v).1 :=
  ⟨⟨ha.bn, fun q hq => Nat.lt_succ_of_lt (ha.bp q hq), ha.body, ha.next⟩, fun _ _ => rfl,
    fun q hq => by
      have := ha.bp q hq
      have : q ≠ h.np := by omega
      simp [Heap.newPrim, this], Nat.le_refl _⟩

theorem fresh_node {h : Heap} (ha : Apart NA PA h) : ¬ NA h.nn := fun hx => Nat.lt_irrefl _ (ha.bn _ hx)

theorem sep_newNode (h : Heap) (ha : Apart NA PA h) (b : Body) (hb : OutBody NA PA b) :
    Sep NA PA h (h.newNode b).1 := by
  refine ⟨⟨fun k hk => Nat.lt_succ_of_lt (ha.bn k hk), ha.bp, fun k hk => ?_, fun k j hk hj => ?_⟩,
    fun k hk => ?_, fun _ _ => rfl, by simp [Heap.newNode]⟩
  · by_cases e : k = h.nn
    · subst e; rw [newNode_self]; exact hb
    · rw [newNode_ne h b k e]; exact ha.body k hk
  · by_cases e : k = h.nn
    · subst e; rw [newNode_self] at hj; cases hj
    · rw [newNode_ne h b k e] at hj; exact ha.next k j hk hj
  · have := ha.bn k hk
    exact newNode_ne h b k (by omega)

theorem sep_setNode (h : Heap) (ha : Apart NA PA h) (i : Nat) (n : Node) (hi : ¬ NA i)
    (hb : OutBody NA PA n.body) (hn : ∀ j, n.next = some j → ¬ NA j) : Sep NA PA h (h.setNode i n) := by
  refine ⟨⟨ha.bn, ha.bp, fun k hk => ?_, fun k j hk hj => ?_⟩, fun k hk => ?_, fun _ _ => rfl, Nat.le_refl _⟩
  · by_cases e : k = i
    · subst e; simpa [Heap.setNode] using hb
    · simpa [Heap.setNode, e] using ha.body k hk
  · by_cases e : k = i
    · subst e; exact hn j (by simpa [Heap.setNode] using hj)
    · exact ha.next k j hk (by simpa [Heap.setNode, e] using hj)
  · have : k ≠ i := fun e => hi (e ▸ hk)
    simp [Heap.setNode, this]

theorem sep_setBody (h : Heap) (ha : Apart NA PA h) (i : Nat) (b : Body) (hi : ¬ NA i)
    (hb : OutBody NA PA b) : Sep NA PA h (h.setBody i b) :=
  sep_setNode h ha i _ hi hb (fun j hj => ha.next i j hi hj)

theorem out_fixed (d : Bytes) : OutBody NA PA (.fixed d) := fun a h => by cases h
theorem out_prefixed (p : Pre) : OutBody NA PA (.prefixed p) := fun a h => by cases h

theorem addAll_prims (h : Heap) (refs : List Nat) (a : Arr) :
    (Arr.addAll h a refs).prims = a.prims ++ refs ∧ (Arr.addAll h a refs).frags = a.frags := by
  induction refs generalizing a with
  | nil => simp [Arr.addAll]
  | cons r rest ih =>
    simp only [Arr.addAll]
    rw [(ih _).1, (ih _).2]
    simp [Arr.mark, Arr.push]

theorem sep_newArray (h : Heap) (ha : Apart NA PA h) (o : ByteOrder) (refs : List Nat)
    (hr : ∀ r ∈ refs, ¬ PA r) : Sep NA PA h (h.newArray o refs).1 := by
  apply sep_newNode h ha
  intro a e
  cases e
  obtain ⟨h1, h2⟩ := addAll_prims h refs (Arr.empty o)
  rw [h1, h2]
  exact ⟨fun r hm => hr r (by simpa [Arr.empty] using hm), fun f hf => by cases hf⟩

theorem sep_addFragment (h : Heap) (ha : Apart NA PA h) (i : Nat) (a : Arr) (hi : ¬ NA i)
    (hb : (h.node i).body = .array a) (s : FragSpec) : Sep NA PA h (h.addFragment i a s).1 := by
  have hout := ha.body i hi a hb
  have h1 := sep_newArray h ha a.order ((a.prims.take s.indexEnd).drop s.indexStart)
    (fun r hr => hout.1 r (List.mem_of_mem_take (List.mem_of_mem_drop hr)))
  refine h1.trans (sep_setBody _ h1.1 i _ hi (fun b hb' => ?_))
  cases hb'
  refine ⟨hout.1, fun f hf => ?_⟩
  rcases List.mem_append.mp hf with hf | hf
  · exact hout.2 f hf
  · rw [List.mem_singleton.mp hf]; exact fresh_node ha

theorem sep_addFragments (specs : List FragSpec) (h : Heap) (ha : Apart NA PA h) (i : Nat) (hi : ¬ NA i) :
    Sep NA PA h (h.addFragments i specs) := by
  induction specs generalizing h with
  | nil => exact sep_refl h ha
  | cons s rest ih =>
    unfold Heap.addFragments
    cases hb : (h.node i).body with
    | array a =>
      have h1 := sep_addFragment h ha i a hi hb s
      exact h1.trans (ih _ h1.1)
    | fixed d => exact sep_refl h ha
    | prefixed p => exact sep_refl h ha

theorem sep_copyPrims (refs : List Nat) (h : Heap) (ha : Apart NA PA h) :
    Sep NA PA h (h.copyPrims refs).1 ∧ ∀ q ∈ (h.copyPrims refs).2, ¬ PA q := by
  induction refs generalizing h with
  | nil => exact ⟨sep_refl h ha, fun q hq => by cases hq⟩
  | cons r rest ih =>
    have h1 := sep_newPrim h ha (h.prim r).kind (h.prim r).val
    obtain ⟨h2, h3⟩ := ih _ h1.1
    refine ⟨h1.trans h2, fun q hq => ?_⟩
    rcases List.mem_cons.mp hq with rfl | hq
    · exact fun hx => Nat.lt_irrefl _ (ha.bp _ hx)
    · exact h3 q hq

theorem sep_copyOne (h : Heap) (ha : Apart NA PA h) (i : Nat) :
    Sep NA PA h (h.copyOne i).1 ∧ ¬ NA (h.copyOne i).2 := by
  unfold Heap.copyOne
  cases hb : (h.node i).body with
  | array a =>
    obtain ⟨h1, h2⟩ := sep_copyPrims a.prims h ha
    have h3 := sep_newArray _ h1.1 a.order _ h2
    have hj : ¬ NA (h.copyPrims a.prims).1.nn := fresh_node h1.1
    exact ⟨(h1.trans h3).trans (sep_addFragments a.specs _ h3.1 _ hj), hj⟩
  | fixed d => exact ⟨sep_newNode h ha _ (out_fixed d), fresh_node ha⟩
  | prefixed p => exact ⟨sep_newNode h ha _ (out_prefixed _), fresh_node ha⟩

theorem sep_copyAll (l : List Nat) (h : Heap) (ha : Apart NA PA h) :
    Sep NA PA h (h.copyAll l).1 ∧ ∀ j, (h.copyAll l).2 = some j → ¬ NA j := by
  induction l generalizing h with
  | nil => exact ⟨sep_refl h ha, fun j hj => by cases hj⟩
  | cons i rest ih =>
    obtain ⟨h1, h2⟩ := sep_copyOne h ha i
    obtain ⟨h3, h4⟩ := ih _ h1.1
    refine ⟨(h1.trans h3).trans (sep_setNode _ h3.1 _ _ h2 (h3.1.body _ h2) h4), fun j hj => ?_⟩
    cases hj
    exact h2

theorem sep_copy (h : Heap) (ha : Apart NA PA h) (i : Nat) :
    Sep NA PA h (h.copy i).1 ∧ ∀ j, (h.copy i).2 = .ok j → ¬ NA j := by
  unfold Heap.copy
  cases h.chain i with
  | error e => exact ⟨sep_refl h ha, fun j hj => by cases hj⟩
  | ok l =>
    obtain ⟨g1, g2⟩ := sep_copyAll l h ha
    dsimp only
    cases hc : h.copyAll l with
    | mk h' o =>
      rw [hc] at g1 g2
      cases o with
      | none => exact ⟨g1, fun j hj => by cases hj⟩
      | some j => exact ⟨g1, fun k hk => by cases hk; exact g2 j rfl⟩

theorem sep_assign (h : Heap) (ha : Apart NA PA h) (i j : Nat) (hi : ¬ NA i) (hj : ¬ NA j) :
    Sep NA PA h (h.assign i j).1 := by
  unfold Heap.assign
  cases hn : (h.node i).next with
  | some _ => exact sep_refl h ha
  | none => exact sep_setNode h ha i _ hi (ha.body i hi) (fun k hk => by cases hk; exact hj)

theorem walk_out (h : Heap) (ha : Apart NA PA h) (fuel i : Nat) (hi : ¬ NA i) (l : List Nat)
    (hw : h.walk fuel i = some l) : ∀ k ∈ l, ¬ NA k := by
  induction fuel generalizing i l with
  | zero => cases hw
  | succ fuel ih =>
    unfold Heap.walk at hw
    cases hn : (h.node i).next with
    | none =>
      rw [hn] at hw
      cases hw
      exact fun k hk => by rw [List.mem_singleton.mp hk]; exact hi
    | some j =>
      rw [hn] at hw
      dsimp only at hw
      cases hr : h.walk fuel j with
      | none => rw [hr] at hw; cases hw
      | some l' =>
        rw [hr] at hw
        cases hw
        intro k hk
        rcases List.mem_cons.mp hk with rfl | hk
        · exact hi
        · exact ih j (ha.next i j hi hn) l' hr k hk

theorem getLastD_mem' (l : List Nat) (i : Nat) (hl : l ≠ []) : l.getLastD i ∈ l := by
  cases l with
  | nil => exact absurd rfl hl
  | cons x xs =>
    rw [List.getLastD_cons, List.getLastD_eq_getLast?]
    cases hx : xs.getLast? with
    | none => simp
    | some y => exact List.mem_cons_of_mem _ (List.mem_of_getLast? hx)

theorem lastOf_out (h : Heap) (ha : Apart NA PA h) (i e : Nat) (hi : ¬ NA i) (he : h.lastOf i = .ok e) :
    ¬ NA e := by
  unfold Heap.lastOf at he
  cases hc : h.chain i with
  | error x => rw [hc] at he; cases he
  | ok l =>
    rw [hc] at he
    have : l.getLastD i = e := by simpa [Except.map] using he
    have h2 := walk_out h ha _ i hi l (chain_walk hc)
    obtain ⟨w1, -, -⟩ := (chain_iff h i l).mp hc
    rw [← this]
    exact h2 _ (getLastD_mem' l i (by rintro rfl; cases w1))

theorem sep_addCopies (n : Nat) (h : Heap) (ha : Apart NA PA h) (i base size : Nat) (hi : ¬ NA i) :
    Sep NA PA h (h.addCopies i base n size).1 := by
  induction n generalizing h size with
  | zero => exact sep_refl h ha
  | succ n ih =>
    unfold Heap.addCopies
    obtain ⟨g1, g2⟩ := sep_copy h ha base
    cases hc : h.copy base with
    | mk h1 res =>
      rw [hc] at g1 g2
      cases res with
      | error e => exact g1
      | ok c =>
        dsimp only at g1 g2 ⊢
        cases hl : h1.lastOf i with
        | error e => exact g1
        | ok e =>
          dsimp only
          have g3 := sep_assign h1 g1.1 e c (lastOf_out h1 g1.1 i e hi hl) (g2 c rfl)
          cases ha' : h1.assign e c with
          | mk h2 res =>
            rw [ha'] at g3
            cases res with
            | error e => exact g1.trans g3
            | ok s => exact (g1.trans g3).trans (ih h2 g3.1 _)

theorem sep_linkEnd (h : Heap) (hap : Apart NA PA h) (i j base : Nat) (len : Option Nat) (hi : ¬ NA i)
    (hj : ¬ NA j) : Sep NA PA h (match h.lastOf i with
    | .error e => (h, (.error e : Except PyErr Nat))
    | .ok e =>
      match h.assign e j with
      | (h, .error x) => (h, .error x)
      | (h, .ok s) =>
        match len with
        | none => (h, .ok s)
        | some n => h.addCopies i base (n - 1) s).1 := by
  cases hl : h.lastOf i with
  | error e => exact sep_refl h hap
  | ok e =>
    dsimp only
    have g3 := sep_assign h hap e j (lastOf_out h hap i e hi hl) hj
    cases ha : h.assign e j with
    | mk h2 res =>
      rw [ha] at g3
      cases res with
      | error e => exact g3
      | ok s =>
        cases len with
        | none => exact g3
        | some n => exact g3.trans (sep_addCopies _ h2 g3.1 i base s hi)

theorem sep_addToEnd (h : Heap) (ha : Apart NA PA h) (i j : Nat) (len : Option Nat) (hi : ¬ NA i)
    (hj : ¬ NA j) : Sep NA PA h (h.addToEnd i j len).1 := by
  cases len with
  | none => exact sep_linkEnd h ha i j j none hi hj
  | some n =>
    unfold Heap.addToEnd
    dsimp only
    have g1 := (sep_copy h ha j).1
    cases hc : h.copy j with
    | mk h1 res =>
      rw [hc] at g1
      cases res with
      | error e => exact g1
      | ok base => exact g1.trans (sep_linkEnd h1 g1.1 i j base (some n) hi hj)

theorem sep_pushMany (h : Heap) (hap : Apart NA PA h) (i : Nat) (a : Arr) (hb : (h.node i).body = .array a)
    (hi : ¬ NA i) (r : Nat) (hr : ¬ PA r) (len : Option Nat) : Sep NA PA h (h.pushMany i a r len).1 := by
  unfold Heap.pushMany
  have hout := hap.body i hi a hb
  obtain ⟨i1, i2⟩ := sep_copyPrims (List.replicate (len.getD 1 - 1) r) h hap
  dsimp only
  generalize h.copyPrims (List.replicate (len.getD 1 - 1) r) = c at *
  refine i1.trans (sep_setBody c.1 i1.1 i _ hi (fun b hb' => ?_))
  cases hb'
  have hprims : ∀ (k : Kind) (rs : List Nat) (a : Arr), ((rs.foldl (fun a r => a.push k r) a).mark).prims = a.prims ++ rs
      ∧ ((rs.foldl (fun a r => a.push k r) a).mark).frags = a.frags := by
    intro k rs
    induction rs with
    | nil => intro a; simp [Arr.mark]
    | cons x xs ih =>
      intro a
      rw [List.foldl_cons]
      rw [(ih _).1, (ih _).2]
      simp [Arr.push]
  rw [(hprims _ _ _).1, (hprims _ _ _).2]
  refine ⟨fun q hq => ?_, hout.2⟩
  rcases List.mem_append.mp hq with hq | hq
  · exact hout.1 q hq
  · rcases List.mem_cons.mp hq with rfl | hq
    · exact hr
    · exact i2 q hq

theorem sep_add (h : Heap) (hap : Apart NA PA h) (i r : Nat) (len : Option Nat) (hi : ¬ NA i) (hr : ¬ PA r) :
    Sep NA PA h (h.add i r len).1 := by
  unfold Heap.add
  cases hb : (h.node i).body with
  | fixed d => exact sep_refl h hap
  | prefixed p => exact sep_refl h hap
  | array self =>
    dsimp only
    cases hl : h.lastOf i with
    | error e => exact sep_refl h hap
    | ok e =>
      dsimp only
      have he := lastOf_out h hap i e hi hl
      have hnew : Sep NA PA h (match (h.newArray self.order []).1.assign e (h.newArray self.order []).2 with
          | (h, .error x) => (h, (.error x : Except PyErr Nat))
          | (h', .ok _) =>
            match (h'.node (h.newArray self.order []).2).body with
            | .array a => ((h'.pushMany (h.newArray self.order []).2 a r len).1,
                .ok (h'.pushMany (h.newArray self.order []).2 a r len).2)
            | _ => (h', .error .attribute)).1 := by
        have g1 := sep_newArray h hap self.order [] (fun q hq => by cases hq)
        have hj : ¬ NA (h.newArray self.order []).2 := fresh_node hap
        have g2 := sep_assign _ g1.1 e (h.newArray self.order []).2 he hj
        cases ha : (h.newArray self.order []).1.assign e (h.newArray self.order []).2 with
        | mk h2 res =>
          rw [ha] at g2
          cases res with
          | error x => exact g1.trans g2
          | ok s =>
            dsimp only at g2 ⊢
            cases hb2 : (h2.node (h.newArray self.order []).2).body with
            | array a => exact (g1.trans g2).trans (sep_pushMany h2 g2.1 _ a hb2 hj r hr len)
            | fixed d => exact g1.trans g2
            | prefixed p => exact g1.trans g2
      cases hbe : (h.node e).body with
      | array a => exact sep_pushMany h hap e a hbe he r hr len
      | fixed d => exact hnew
      | prefixed p => exact hnew

theorem sep_update (h : Heap) (hap : Apart NA PA h) (i : Nat) (hi : ¬ NA i) (data : Bytes) :
    Sep NA PA h (h.update i data).1 := by
  unfold Heap.update
  cases hb : (h.node i).body with
  | array a =>
    dsimp only
    cases hu : unpack a.order a.fmt data with
    | error e => exact sep_refl h hap
    | ok vs => exact sep_setAll _ _ h hap (hap.body i hi a hb).1
  | fixed d => exact sep_setBody h hap i _ hi (out_fixed _)
  | prefixed p => exact sep_setBody h hap i _ hi (out_prefixed _)

theorem sep_fromStreamOne (h : Heap) (hap : Apart NA PA h) (i : Nat) (hi : ¬ NA i) (s : Bytes) :
    Sep NA PA h (h.fromStreamOne i s).1 := by
  have hgen : ∀ n, Sep NA PA h (match h.update i (s.take n) with
      | (h, .error e) => (h, (.error e : Except PyErr (Nat × Bytes)))
      | (h, .ok m) => (h, .ok (m, s.drop n))).1 := by
    intro n
    have g := sep_update h hap i hi (s.take n)
    cases hu : h.update i (s.take n) with
    | mk h1 res =>
      rw [hu] at g
      cases res <;> exact g
  unfold Heap.fromStreamOne
  cases hb : (h.node i).body with
  | array a => exact hgen _
  | fixed d => exact hgen _
  | prefixed p =>
    dsimp only
    cases decodeInt p.kind p.order (s.take p.kind.size) with
    | error e => exact sep_refl h hap
    | ok v =>
      dsimp only
      generalize Pre.updateSize { p with pfx := v, data := (s.drop p.kind.size).take v.toNat } = q
      obtain ⟨p', res⟩ := q
      cases res <;> exact sep_setBody h hap i _ hi (out_prefixed _)

theorem sep_readAll (l : List Nat) (h : Heap) (hap : Apart NA PA h) (hl : ∀ i ∈ l, ¬ NA i) (s : Bytes) :
    Sep NA PA h (h.readAll l s).1 := by
  induction l generalizing h s with
  | nil => exact sep_refl h hap
  | cons i rest ih =>
    unfold Heap.readAll
    have g1 := sep_fromStreamOne h hap i (hl i List.mem_cons_self) s
    cases e1 : h.fromStreamOne i s with
    | mk h1 res =>
      rw [e1] at g1
      cases res with
      | error e => exact g1
      | ok ns =>
        obtain ⟨n, s'⟩ := ns
        dsimp only at g1 ⊢
        have g2 := ih h1 g1.1 (fun k hk => hl k (List.mem_cons_of_mem _ hk)) s'
        cases e2 : h1.readAll rest s' with
        | mk h2 res =>
          rw [e2] at g2
          cases res with
          | error e => exact g1.trans g2
          | ok ms => exact g1.trans g2

theorem sep_fromStream (h : Heap) (hap : Apart NA PA h) (i : Nat) (hi : ¬ NA i) (s : Bytes) :
    Sep NA PA h (h.fromStream i s).1 := by
  unfold Heap.fromStream
  cases hc : h.chain i with
  | error e => exact sep_refl h hap
  | ok l => exact sep_readAll l h hap (walk_out h hap _ i hi l (chain_walk hc)) s

theorem sep_frag (h : Heap) (hap : Apart NA PA h) (i start : Nat) (e : Option Nat) (hi : ¬ NA i) :
    Sep NA PA h (h.fragIndices i start e).1 ∧ Sep NA PA h (h.fragBytes i start e).1 := by
  unfold Heap.fragIndices Heap.fragBytes
  cases hb : (h.node i).body with
  | array a =>
    dsimp only
    constructor
    · cases a.indexSpec start e with
      | error x => exact sep_refl h hap
      | ok s => exact sep_addFragment h hap i a hi hb s
    · cases a.byteSpec start e with
      | error x => exact sep_refl h hap
      | ok s => exact sep_addFragment h hap i a hi hb s
  | fixed d => exact ⟨sep_refl h hap, sep_refl h hap⟩
  | prefixed p => exact ⟨sep_refl h hap, sep_refl h hap⟩

/-- One operation of a program holding references to objects outside the set only. Objects of the
set may still be copied. -/
inductive Step (NA PA : Nat → Prop) : Heap → Heap → Prop where
  | newPrim (h : Heap) (k : Kind) (v : Val) : Step NA PA h (h.newPrim k v).1
  | setPrim (h : Heap) (r : Nat) (v : Val) : ¬ PA r → Step NA PA h (h.setPrim r v)
  | newArray (h : Heap) (o : ByteOrder) (refs : List Nat) : (∀ r ∈ refs, ¬ PA r) →
      Step NA PA h (h.newArray o refs).1
  | newFixed (h : Heap) (d : Bytes) : Step NA PA h (h.newNode (.fixed d)).1
  | newPrefixed (h : Heap) (k : IntKind) (o : ByteOrder) (v : Int) : Step NA PA h (h.newPrefixed k o v).1
  | add (h : Heap) (i r : Nat) (len : Option Nat) : ¬ NA i → ¬ PA r → Step NA PA h (h.add i r len).1
  | assign (h : Heap) (i j : Nat) : ¬ NA i → ¬ NA j → Step NA PA h (h.assign i j).1
  | addToEnd (h : Heap) (i j : Nat) (len : Option Nat) : ¬ NA i → ¬ NA j → Step NA PA h (h.addToEnd i j len).1
  | copy (h : Heap) (i : Nat) : Step NA PA h (h.copy i).1
  | update (h : Heap) (i : Nat) (data : Bytes) : ¬ NA i → Step NA PA h (h.update i data).1
  | fromStream (h : Heap) (i : Nat) (s : Bytes) : ¬ NA i → Step NA PA h (h.fromStream i s).1
  | fragIndices (h : Heap) (i start : Nat) (e : Option Nat) : ¬ NA i → Step NA PA h (h.fragIndices i start e).1
  | fragBytes (h : Heap) (i start : Nat) (e : Option Nat) : ¬ NA i → Step NA PA h (h.fragBytes i start e).1
  | reset (h : Heap) (i : Nat) (a : Arr) : ¬ NA i → (h.node i).body = .array a →
      Step NA PA h (h.setBody i (.array a.reset))

/-- Any number of operations. -/
inductive Steps (NA PA : Nat → Prop) : Heap → Heap → Prop where
  | refl (h : Heap) : Steps NA PA h h
  | step {a b c : Heap} : Steps NA PA a b → Step NA PA b c → Steps NA PA a c

theorem sep_step {h h' : Heap} (ha : Apart NA PA h) (hs : Step NA PA h h') : Sep NA PA h h' := by
  cases hs with
  | newPrim k v => exact sep_newPrim h ha k v
  | setPrim r v hr => exact sep_setPrim h ha r v hr
  | newArray o refs hr => exact sep_newArray h ha o refs hr
  | newFixed d => exact sep_newNode h ha _ (out_fixed d)
  | newPrefixed k o v =>
    unfold Heap.newPrefixed
    split
    · exact sep_refl h ha
    · exact sep_newNode h ha _ (out_prefixed _)
  | add i r len h1 h2 => exact sep_add h ha i r len h1 h2
  | assign i j h1 h2 => exact sep_assign h ha i j h1 h2
  | addToEnd i j len h1 h2 => exact sep_addToEnd h ha i j len h1 h2
  | copy i => exact (sep_copy h ha i).1
  | update i d h1 => exact sep_update h ha i h1 d
  | fromStream i s h1 => exact sep_fromStream h ha i h1 s
  | fragIndices i st e h1 => exact (sep_frag h ha i st e h1).1
  | fragBytes i st e h1 => exact (sep_frag h ha i st e h1).2
  | reset i a h1 h2 =>
    exact sep_setBody h ha i _ h1 (fun b hb => by
      cases hb; exact ⟨fun r hr => (by cases hr), fun r hr => (by cases hr)⟩)

theorem sep_steps {h h' : Heap} (ha : Apart NA PA h) (hs : Steps NA PA h h') : Sep NA PA h h' := by
  induction hs with
  | refl => exact sep_refl _ ha
  | step _ h2 ih => exact ih.trans (sep_step ih.1 h2)

/-- A chain of objects inside the set keeps its members, contents and bytes. -/
theorem keep_chain {h h' : Heap} (hk : Keep NA PA h h') (i : Nat) (l : List Nat) (hc : h.chain i = .ok l)
    (hl : ∀ k ∈ l, NA k) (hp : ∀ k ∈ l, ∀ q ∈ primsOf h k, PA q) :
    h'.chain i = .ok l ∧ l.map (view h') = l.map (view h) ∧ h'.toStream i = h.toStream i := by
  obtain ⟨w1, w2, w3⟩ := (chain_iff h i l).mp hc
  have hc' : h'.chain i = .ok l := (chain_iff h' i l).mpr
    ⟨w1, chained_frame h h' l (fun k hk' => by rw [hk.node k (hl k hk')]) w2, Nat.le_trans w3 hk.nn⟩
  have hpr : ∀ k ∈ l, ∀ a, (h.node k).body = .array a → ∀ r ∈ a.prims, h'.prim r = h.prim r := by
    intro k hk' a ha r hr
    exact hk.prim r (hp k hk' r (by simpa [primsOf, ha] using hr))
  refine ⟨hc', List.map_congr_left (fun k hk' => ?_), ?_⟩
  · unfold view
    rw [hk.node k (hl k hk')]
    cases hb : (h.node k).body with
    | fixed d => rfl
    | prefixed p => rfl
    | array a =>
      simp only [cells]
      congr 1
      exact List.map_congr_left (fun r hr => by rw [hpr k hk' a hb r hr])
  · simp only [Heap.toStream, hc, hc']
    apply writeAll_congr
    · refine List.map_congr_left (fun k hk' => ?_)
      unfold Heap.bytes
      rw [hk.node k (hl k hk')]
      cases hb : (h.node k).body with
      | fixed d => rfl
      | prefixed p => rfl
      | array a =>
        dsimp only
        have : a.prims.map (fun r => (h'.prim r).val) = a.prims.map (fun r => (h.prim r).val) :=
          List.map_congr_left (fun r hr => by rw [hpr k hk' a hb r hr])
        rw [this]
    · exact List.map_congr_left (fun k hk' => by rw [hk.node k (hl k hk')])

/-- The objects made by a copy are apart from the others. -/
theorem apart_new {h h' : Heap} (hk : HeapOk h) (hk' : HeapOk h') (he : Ext h h') :
    Apart (fun k => h.nn ≤ k ∧ k < h'.nn) (fun q => h.np ≤ q ∧ q < h'.np) h' := by
  refine ⟨fun k hx => hx.2, fun q hx => hx.2, fun k hx a ha => ?_, fun k j hx hj => ?_⟩
  · by_cases hlt : k < h.nn
    · rw [he.node k hlt] at ha
      have := hk.arrays k a ha
      exact ⟨fun r hr hx => by have := this.refs r hr; omega, fun f hf hx => by have := this.frags f hf; omega⟩
    · exact absurd ha ((hk'.unused k (by omega)).2 a)
  · by_cases hlt : k < h.nn
    · rw [he.node k hlt] at hj
      have := hk.links k j hj
      omega
    · rw [(hk'.unused k (by omega)).1] at hj
      cases hj

/-- All existing objects are apart from those still to be made. -/
theorem apart_all {h : Heap} (hk : HeapOk h) : Apart (fun k => k < h.nn) (fun q => q < h.np) h := by
  refine ⟨fun k hx => hx, fun q hx => hx, fun k hx a ha => ?_, fun k j hx hj => ?_⟩
  · exact absurd ha ((hk.unused k (by omega)).2 a)
  · rw [(hk.unused k (by omega)).1] at hj
    cases hj

/-- C23. After copying a chain, no later history of operations on the original or on any other
object — values set, updates from bytes or streams, elements added, chains extended, fragments
made, resets — changes the copy: not its members, their contents nor its bytes. -/
theorem C23_original_changes (h : Heap) (hk : HeapOk h) (i : Nat) (hi : i < h.nn) (l : List Nat)
    (hc : h.chain i = .ok l) :
    ∃ h' j l2, h.copy i = (h', .ok j) ∧ h'.chain j = .ok l2
      ∧ ∀ h'', Steps (fun k => h.nn ≤ k ∧ k < h'.nn) (fun q => h.np ≤ q ∧ q < h'.np) h' h'' →
          h''.chain j = .ok l2 ∧ l2.map (view h'') = l.map (view h) ∧ h''.toStream j = h'.toStream j := by
  obtain ⟨h', j, l2, e1, e2, e3, e4, e5, e6, e7, e8, e9, e10, e11⟩ := copy_spec h hk i hi l hc
  refine ⟨h', j, l2, e1, e2, fun h'' hs => ?_⟩
  have hsep := sep_steps (apart_new hk e7 e6) hs
  obtain ⟨k1, k2, k3⟩ := keep_chain hsep.2 j l2 e2 e8 e9
  exact ⟨k1, k2.trans e4, k3⟩

/-- C23. After copying a chain, no later history of operations on the copy changes the original:
not one of the objects that existed before. -/
theorem C23_copy_changes (h : Heap) (hk : HeapOk h) (i : Nat) (hi : i < h.nn) (l : List Nat)
    (hc : h.chain i = .ok l) :
    ∃ h' j, h.copy i = (h', .ok j) ∧ h.nn ≤ j
      ∧ ∀ h'', Steps (fun k => k < h.nn) (fun q => q < h.np) h' h'' →
          h''.chain i = .ok l ∧ l.map (view h'') = l.map (view h) ∧ h''.toStream i = h.toStream i
          ∧ (∀ k, k < h.nn → h''.node k = h.node k) ∧ (∀ q, q < h.np → h''.prim q = h.prim q) := by
  obtain ⟨h', j, l2, e1, e2, e3, e4, e5, e6, e7, e8, e9, e10, e11⟩ := copy_spec h hk i hi l hc
  obtain ⟨-, hlt⟩ := chain_lt h hk i hi l hc
  have hj : h.nn ≤ j := by
    obtain ⟨w1, -, -⟩ := (chain_iff h' j l2).mp e2
    exact (e8 j (List.mem_of_mem_head? w1)).1
  refine ⟨h', j, e1, hj, fun h'' hs => ?_⟩
  have h1 := (sep_copy h (apart_all hk) i).1
  rw [e1] at h1
  have hsep := h1.trans (sep_steps h1.1 hs)
  obtain ⟨k1, k2, k3⟩ := keep_chain hsep.2 i l hc hlt (fun k hk' q hq => by
    unfold primsOf at hq
    cases hb : (h.node k).body with
    | array a => rw [hb] at hq; exact (hk.arrays k a hb).refs q hq
    | fixed d => rw [hb] at hq; cases hq
    | prefixed p => rw [hb] at hq; cases hq)
  exact ⟨k1, k2, k3, hsep.2.node, hsep.2.prim⟩

end Verif.Serial
