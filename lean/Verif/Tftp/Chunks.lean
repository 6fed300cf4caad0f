import Verif.Base
/-!
C38: model of `runtimepy/net/udp/tftp/io.py`.
-/
namespace Verif.Tftp

/-- The reading loop of `tftp_chunks`, io.py 18–27: `read(n)` takes at most `n` bytes; stop at the
first empty read. (Block sizes are natural numbers.) -/
def readLoop (n : Nat) (file : Bytes) : List Bytes :=
  if _h : file.take n = [] then []
  else file.take n :: readLoop n (file.drop n)
termination_by file.length
decreasing_by
  cases n with
  | zero => simp at _h
  | succ n =>
    cases file with
    | nil => simp at _h
    | cons b file => simp; omega

/-- `prev_length`, io.py 16 and 27: the length of the last block yielded. -/
def prevLength (cs : List Bytes) : Nat := (cs.getLast?.map List.length).getD 0

/-- `tftp_chunks`, io.py 10–31. -/
def chunks (n : Nat) (file : Bytes) : List Bytes :=
  let cs := readLoop n file
  if prevLength cs = 0 ∨ prevLength cs ≥ n then cs ++ [[]] else cs

theorem readLoop_eq (n : Nat) (file : Bytes) (hn : 0 < n) :
    readLoop n file = if file = [] then [] else file.take n :: readLoop n (file.drop n) := by
  rw [readLoop]
  have : file.take n = [] ↔ file = [] := by
    rw [List.take_eq_nil_iff]
    constructor
    · rintro (h | h)
      · omega
      · exact h
    · exact Or.inr
  by_cases h : file = []
  · simp [h]
  · rw [dif_neg (fun e => h (this.mp e)), if_neg h]

theorem readLoop_spec (n : Nat) (file : Bytes) (hn : 0 < n) :
    (readLoop n file).flatten = file ∧
    (readLoop n file = [] ∧ file = [] ∨
      ∃ init last, readLoop n file = init ++ [last] ∧ (∀ c ∈ init, c.length = n) ∧ 0 < last.length
        ∧ last.length ≤ n) := by
  rw [readLoop_eq n file hn]
  by_cases h : file = []
  · simp [h]
  · rw [if_neg h]
    have hlt : (file.drop n).length < file.length := by
      have : 0 < file.length := List.length_pos_iff.mpr h
      simp; omega
    obtain ⟨h1, h2⟩ := readLoop_spec n (file.drop n) hn
    refine ⟨by rw [List.flatten_cons, h1, List.take_append_drop], Or.inr ?_⟩
    have hpos : 0 < (file.take n).length := by
      have : 0 < file.length := List.length_pos_iff.mpr h
      simp; omega
    rcases h2 with ⟨h2, h3⟩ | ⟨init, last, h2, h3, h4, h5⟩
    · rw [h2]
      exact ⟨[], file.take n, rfl, fun _ hc => (by cases hc), hpos, List.length_take_le _ _⟩
    · rw [h2]
      refine ⟨file.take n :: init, last, rfl, ?_, h4, h5⟩
      intro c hc
      rcases List.mem_cons.mp hc with rfl | hc
      · rw [List.length_take]
        have : (readLoop n (file.drop n)).flatten.length ≥ last.length := by
          rw [h2]; simp
        rw [h1, List.length_drop] at this
        omega
      · exact h3 c hc
termination_by file.length

/-- C38. For every file and positive block size: the blocks put together are the file, all but the
last have exactly the block size, and the last is strictly shorter (and empty when the length of the
file is a multiple of the block size). -/
theorem C38_chunks (n : Nat) (file : Bytes) (hn : 0 < n) :
    (chunks n file).flatten = file ∧
    ∃ init last, chunks n file = init ++ [last] ∧ (∀ c ∈ init, c.length = n) ∧ last.length < n
      ∧ last.length = file.length % n ∧ init.length = file.length / n := by
  obtain ⟨h1, h2⟩ := readLoop_spec n file hn
  have main : (chunks n file).flatten = file ∧
      ∃ init last, chunks n file = init ++ [last] ∧ (∀ c ∈ init, c.length = n) ∧ last.length < n := by
    unfold chunks
    dsimp only
    rcases h2 with ⟨h2, h3⟩ | ⟨init, last, h2, h3, h4, h5⟩
    · rw [h2, if_pos (Or.inl (show prevLength [] = 0 from rfl))]
      exact ⟨by simp [h3], [], [], rfl, fun _ hc => (by cases hc), hn⟩
    · have hp : prevLength (readLoop n file) = last.length := by
        rw [h2]; simp [prevLength]
      rw [hp]
      by_cases hl : last.length ≥ n
      · rw [if_pos (Or.inr hl)]
        refine ⟨by simp [h1], readLoop n file, [], rfl, ?_, hn⟩
        intro c hc
        rw [h2] at hc
        rcases List.mem_append.mp hc with hc | hc
        · exact h3 c hc
        · simp only [List.mem_singleton] at hc
          subst hc; omega
      · rw [if_neg (by omega)]
        exact ⟨h1, init, last, h2, h3, by omega⟩
  obtain ⟨hf, init, last, he, hi, hl⟩ := main
  refine ⟨hf, init, last, he, hi, hl, ?_⟩
  have hlen : file.length = n * init.length + last.length := by
    have hsum : ∀ l : List Bytes, (∀ c ∈ l, c.length = n) → l.flatten.length = n * l.length := by
      intro l hl
      induction l with
      | nil => simp
      | cons c l ih =>
        rw [List.flatten_cons, List.length_append, ih (fun d hd => hl d (List.mem_cons_of_mem _ hd)),
          hl c List.mem_cons_self, List.length_cons, Nat.mul_add]
        omega
    rw [← hf, he, List.flatten_append, List.length_append, hsum init hi]
    simp
  rw [hlen]
  refine ⟨?_, ?_⟩
  · rw [Nat.mul_add_mod, Nat.mod_eq_of_lt hl]
  · rw [Nat.mul_add_div hn, Nat.div_eq_of_lt hl, Nat.add_zero]

/-- A block size of zero loses the file. -/
theorem C38_zero_fails (file : Bytes) : chunks 0 file = [[]] := by
  unfold chunks
  rw [readLoop]
  simp [prevLength]

example : chunks 2 [1, 2, 3, 4] = [[1, 2], [3, 4], []] ∧ chunks 2 [1, 2, 3] = [[1, 2], [3]]
    ∧ chunks 2 [] = [[]] := by decide +kernel

end Verif.Tftp
