import Verif.Wire.Model
namespace Verif.Wire

theorem digitsLE_length (n v : Nat) : (digitsLE n v).length = n := by
  induction n generalizing v with
  | zero => rfl
  | succ n ih => simp [digitsLE, ih]

theorem ofDigitsLE_digitsLE (n v : Nat) : ofDigitsLE (digitsLE n v) = v % 256 ^ n := by
  induction n generalizing v with
  | zero => simp [digitsLE, ofDigitsLE, Nat.mod_one]
  | succ n ih =>
    simp only [digitsLE, ofDigitsLE, ih]
    rw [Nat.pow_succ, Nat.mul_comm (256 ^ n) 256, Nat.mod_mul]
    congr 1
    rw [UInt8.toNat_ofNat']
    omega

theorem ofDigitsLE_lt (bs : Bytes) : ofDigitsLE bs < 256 ^ bs.length := by
  induction bs with
  | nil => simp [ofDigitsLE]
  | cons b bs ih =>
    simp only [ofDigitsLE, List.length_cons, Nat.pow_succ]
    have := b.toNat_lt
    omega

theorem digitsLE_ofDigitsLE (bs : Bytes) : digitsLE bs.length (ofDigitsLE bs) = bs := by
  induction bs with
  | nil => rfl
  | cons b bs ih =>
    have hb := b.toNat_lt
    simp only [ofDigitsLE, List.length_cons, digitsLE]
    have h1 : (b.toNat + 256 * ofDigitsLE bs) % 256 = b.toNat := by omega
    have h2 : (b.toNat + 256 * ofDigitsLE bs) / 256 = ofDigitsLE bs := by omega
    rw [h1, h2, ih]
    simp

theorem arrange_length (o : ByteOrder) (bs : Bytes) : (arrange o bs).length = bs.length := by
  cases o <;> simp [arrange]

theorem arrange_arrange (o : ByteOrder) (bs : Bytes) : arrange o (arrange o bs) = bs := by
  cases o <;> simp [arrange]

theorem pow_256 (n : Nat) : 256 ^ n = 2 ^ (8 * n) := by
  rw [show (256 : Nat) = 2 ^ 8 from rfl, ← Nat.pow_mul]

theorem toPattern_lt (n : Nat) (v : Int) : toPattern n v < 2 ^ (8 * n) := by
  unfold toPattern
  have h : (0 : Int) < 2 ^ (8 * n) := Int.pow_pos (by decide)
  have h1 := Int.emod_nonneg v (Int.ne_of_gt h)
  have h2 := Int.emod_lt_of_pos v h
  have : ((v % 2 ^ (8 * n)).toNat : Int) < ((2 ^ (8 * n) : Nat) : Int) := by
    rw [Int.toNat_of_nonneg h1]; simpa using h2
  omega

theorem toPattern_cast (n : Nat) (v : Int) : (toPattern n v : Int) = v % 2 ^ (8 * n) := by
  unfold toPattern
  have h : (0 : Int) < 2 ^ (8 * n) := Int.pow_pos (by decide)
  exact Int.toNat_of_nonneg (Int.emod_nonneg v (Int.ne_of_gt h))

theorem pow_split (n : Nat) (hn : 0 < n) : (2 : Int) ^ (8 * n) = 2 * 2 ^ (8 * n - 1) := by
  have : 8 * n = (8 * n - 1) + 1 := by omega
  rw [this, Int.pow_succ]
  simp [Int.mul_comm]

theorem ofPattern_toPattern (n : Nat) (s : Bool) (v : Int) (hn : 0 < n)
    (h : packable n s v = true) : ofPattern n s (toPattern n v) = v := by
  have hs := pow_split n hn
  have hc := toPattern_cast n v
  have hpos : (0 : Int) < 2 ^ (8 * n - 1) := Int.pow_pos (by decide)
  have hpc : ((2 ^ (8 * n - 1) : Nat) : Int) = (2 : Int) ^ (8 * n - 1) := by simp
  unfold ofPattern
  cases s with
  | false =>
    simp only [packable, Bool.false_eq_true, if_false, Bool.and_eq_true, decide_eq_true_eq] at h
    simp only [Bool.false_and, Bool.false_eq_true, if_false]
    rw [hc, Int.emod_eq_of_lt h.1 h.2]
  | true =>
    simp only [packable, if_true, Bool.and_eq_true, decide_eq_true_eq] at h
    by_cases hv : 0 ≤ v
    · have e : v % 2 ^ (8 * n) = v := Int.emod_eq_of_lt hv (by omega)
      rw [e] at hc
      have : ¬ (2 ^ (8 * n - 1) ≤ toPattern n v) := by omega
      simp [this, hc]
    · have e : v % 2 ^ (8 * n) = v + 2 ^ (8 * n) := by
        rw [← Int.add_emod_right v (2 ^ (8 * n))]
        exact Int.emod_eq_of_lt (by omega) (by omega)
      rw [e] at hc
      have : (2 ^ (8 * n - 1) ≤ toPattern n v) := by omega
      simp [this, hc]

theorem packable_ofPattern (n : Nat) (s : Bool) (p : Nat) (hn : 0 < n)
    (h : p < 2 ^ (8 * n)) : packable n s (ofPattern n s p) = true := by
  have hs := pow_split n hn
  have hpc : ((2 ^ (8 * n - 1) : Nat) : Int) = (2 : Int) ^ (8 * n - 1) := by simp
  have hpc2 : ((2 ^ (8 * n) : Nat) : Int) = (2 : Int) ^ (8 * n) := by simp
  have hpos : (0 : Int) < 2 ^ (8 * n - 1) := Int.pow_pos (by decide)
  unfold ofPattern packable
  cases s with
  | false => simp; omega
  | true =>
    by_cases hp : 2 ^ (8 * n - 1) ≤ p
    · simp [hp]; omega
    · simp [hp]; omega

theorem ofPattern_emod (n : Nat) (s : Bool) (p : Nat) :
    ofPattern n s p % 2 ^ (8 * n) = (p : Int) % 2 ^ (8 * n) := by
  unfold ofPattern
  split
  · rw [← Int.add_emod_right ((p : Int) - 2 ^ (8 * n)), Int.sub_add_cancel]
  · rfl

theorem toPattern_ofPattern (n : Nat) (s : Bool) (p : Nat) (h : p < 2 ^ (8 * n)) :
    toPattern n (ofPattern n s p) = p := by
  have hc := toPattern_cast n (ofPattern n s p)
  rw [ofPattern_emod] at hc
  have hpc2 : ((2 ^ (8 * n) : Nat) : Int) = (2 : Int) ^ (8 * n) := by simp
  rw [Int.emod_eq_of_lt (by omega) (by omega)] at hc
  omega

theorem IntKind.size_pos (k : IntKind) : 0 < k.size := by cases k <;> decide

theorem wrap_packable (k : IntKind) (v : Int) : packable k.size k.signed (wrap k v) = true :=
  packable_ofPattern _ _ _ k.size_pos (toPattern_lt _ _)

theorem wrap_of_packable (k : IntKind) (v : Int) (h : packable k.size k.signed v = true) :
    wrap k v = v := ofPattern_toPattern _ _ _ k.size_pos h

theorem wrap_emod (k : IntKind) (v : Int) :
    wrap k v % 2 ^ k.bits = v % 2 ^ k.bits := by
  have : k.bits = 8 * k.size := Nat.mul_comm _ _
  rw [this, wrap, ofPattern_emod, toPattern_cast, Int.emod_emod_of_dvd _ (Int.dvd_refl _)]

end Verif.Wire
