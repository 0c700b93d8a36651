/-
  Lemmas about the specification functions of `Verif.Spec`.
-/
import Verif.Spec

namespace Sdsl.Spec

theorem bitsVal_lt (f : Nat → Bool) (n : Nat) : bitsVal f n < 2 ^ n := by
  induction n with
  | zero => simp [bitsVal]
  | succ n ih =>
    have := Bool.toNat_le (f n)
    simp only [bitsVal, Nat.pow_succ]
    have : (f n).toNat * 2 ^ n ≤ 1 * 2 ^ n := Nat.mul_le_mul_right _ this
    omega

theorem testBit_bitsVal (f : Nat → Bool) (n i : Nat) :
    (bitsVal f n).testBit i = (decide (i < n) && f i) := by
  induction n with
  | zero => simp [bitsVal]
  | succ n ih =>
    have h := bitsVal_lt f n
    simp only [bitsVal]
    rw [Nat.add_comm, Nat.mul_comm, Nat.testBit_two_pow_mul_add _ h]
    by_cases hi : i < n
    · simp [hi, ih]; omega
    · simp only [hi, if_false]
      by_cases hin : i = n
      · subst hin; simp; cases f i <;> simp
      · have : 0 < i - n := by omega
        have h2 : ¬ i < n + 1 := by omega
        simp only [h2, decide_false, Bool.false_and]
        cases f n
        · simp
        · obtain ⟨k, hk⟩ : ∃ k, i - n = k + 1 := ⟨i - n - 1, by omega⟩
          rw [hk]; simp [Nat.testBit_succ]

theorem bitsVal_congr {f g : Nat → Bool} {n : Nat} (h : ∀ i, i < n → f i = g i) :
    bitsVal f n = bitsVal g n := by
  apply Nat.eq_of_testBit_eq
  intro i
  rw [testBit_bitsVal, testBit_bitsVal]
  by_cases hi : i < n
  · simp [h i hi]
  · simp [hi]

/-- A number is the value of its bits. -/
theorem bitsVal_testBit (x n : Nat) : bitsVal (fun i => x.testBit i) n = x % 2 ^ n := by
  apply Nat.eq_of_testBit_eq
  intro i
  rw [testBit_bitsVal, Nat.testBit_mod_two_pow]

theorem bitsVal_getLsbD (x : Word) : bitsVal (fun i => x.getLsbD i) 64 = x.toNat := by
  have := bitsVal_testBit x.toNat 64
  rw [Nat.mod_eq_of_lt x.isLt] at this
  exact this

theorem countTrue_le (f : Nat → Bool) (n : Nat) : countTrue f n ≤ n := by
  induction n with
  | zero => simp [countTrue]
  | succ n ih => have := Bool.toNat_le (f n); simp only [countTrue]; omega

theorem countTrue_congr {f g : Nat → Bool} {n : Nat} (h : ∀ i, i < n → f i = g i) :
    countTrue f n = countTrue g n := by
  induction n with
  | zero => rfl
  | succ n ih =>
    simp only [countTrue]
    rw [ih (fun i hi => h i (by omega)), h n (by omega)]

theorem countTrue_add (f : Nat → Bool) (a b : Nat) :
    countTrue f (a + b) = countTrue f a + countTrue (fun i => f (a + i)) b := by
  induction b with
  | zero => simp [countTrue]
  | succ b ih => rw [← Nat.add_assoc]; simp only [countTrue]; rw [ih]; omega

theorem countTrue_mono (f : Nat → Bool) {a b : Nat} (h : a ≤ b) : countTrue f a ≤ countTrue f b := by
  obtain ⟨c, rfl⟩ := Nat.exists_eq_add_of_le h
  rw [countTrue_add]; omega

theorem countTrue_false (n : Nat) : countTrue (fun _ => false) n = 0 := by
  induction n with
  | zero => rfl
  | succ n ih => simp [countTrue, ih]

theorem countTrue_true (n : Nat) : countTrue (fun _ => true) n = n := by
  induction n with
  | zero => rfl
  | succ n ih => simp [countTrue, ih]

theorem countTrue_not (f : Nat → Bool) (n : Nat) :
    countTrue (fun i => !f i) n = n - countTrue f n := by
  have : countTrue (fun i => !f i) n + countTrue f n = n := by
    induction n with
    | zero => rfl
    | succ n ih => simp only [countTrue]; cases f n <;> simp <;> omega
  omega

theorem countTrue_eq_zero {f : Nat → Bool} {n : Nat} (h : countTrue f n = 0) {i : Nat} (hi : i < n) :
    f i = false := by
  induction n with
  | zero => omega
  | succ n ih =>
    simp only [countTrue] at h
    by_cases e : i = n
    · subst e; cases hf : f i <;> simp [hf] at h ⊢
    · exact ih (by omega) (by omega)

/-- The position of the `i`-th true index is unique. -/
theorem IsSelect.unique {f : Nat → Bool} {n i p q : Nat} (hp : IsSelect f n i p) (hq : IsSelect f n i q) :
    p = q := by
  obtain ⟨_, hp1, hp2⟩ := hp
  obtain ⟨_, hq1, hq2⟩ := hq
  rcases Nat.lt_trichotomy p q with h | h | h
  · have : countTrue f (p + 1) ≤ countTrue f q := countTrue_mono f h
    simp [countTrue, hp1] at this; omega
  · exact h
  · have : countTrue f (q + 1) ≤ countTrue f p := countTrue_mono f h
    simp [countTrue, hq1] at this; omega

/-- The `i`-th true index exists for `1 ≤ i ≤ countTrue f n`. -/
theorem IsSelect.exists {f : Nat → Bool} {n i : Nat} (h1 : 1 ≤ i) (h2 : i ≤ countTrue f n) :
    ∃ p, IsSelect f n i p := by
  induction n with
  | zero => simp [countTrue] at h2; omega
  | succ n ih =>
    simp only [countTrue] at h2
    by_cases h : i ≤ countTrue f n
    · obtain ⟨p, hp1, hp2, hp3⟩ := ih h
      exact ⟨p, by omega, hp2, hp3⟩
    · cases hf : f n
      · simp [hf] at h2; omega
      · simp [hf] at h2
        exact ⟨n, by omega, hf, by omega⟩

theorem IsSelect.mono {f : Nat → Bool} {n n' i p : Nat} (h : IsSelect f n i p) (hn : n ≤ n') :
    IsSelect f n' i p := ⟨Nat.lt_of_lt_of_le h.1 hn, h.2⟩

theorem countTrue_lt_of_true {f : Nat → Bool} {n p : Nat} (hp : p < n) (h : f p = true) :
    countTrue f p < countTrue f n := by
  have := countTrue_mono f (show p + 1 ≤ n from hp)
  simp [countTrue, h] at this; omega

/-- Splitting a select at `a`: the answer lies beyond `a` when fewer than `i` are before `a`. -/
theorem IsSelect.shift {f : Nat → Bool} {a n i p : Nat}
    (h : IsSelect (fun j => f (a + j)) n i p) : IsSelect f (a + n) (countTrue f a + i) (a + p) := by
  obtain ⟨h1, h2, h3⟩ := h
  refine ⟨by omega, h2, ?_⟩
  rw [countTrue_add]; omega

theorem bitAt_of_lt {m : Mem} {p : Nat} (h : p / 64 < m.length) :
    bitAt m p = m[p / 64].getLsbD (p % 64) := by
  simp [bitAt, h]

theorem bitAt_of_ge {m : Mem} {p : Nat} (h : m.length ≤ p / 64) : bitAt m p = false := by
  simp [bitAt, h]

theorem bitAt_mul_add {m : Mem} {q j : Nat} (hj : j < 64) (h : q < m.length) :
    bitAt m (64 * q + j) = m[q].getLsbD j := by
  have h1 : (64 * q + j) / 64 = q := by omega
  have h2 : (64 * q + j) % 64 = j := by omega
  simp [bitAt, h1, h2, h]

theorem bitAt_mul_add' {m : Mem} {q j : Nat} (hj : j < 64) (h : q < m.length) :
    bitAt m (q * 64 + j) = m[q].getLsbD j := by
  rw [Nat.mul_comm]; exact bitAt_mul_add hj h

theorem bitAt_set {m : Mem} {q : Nat} {w : Word} (h : q < m.length) (p : Nat) :
    bitAt (m.set q w) p = if p / 64 = q then w.getLsbD (p % 64) else bitAt m p := by
  unfold bitAt
  rw [List.getElem?_set]
  by_cases e : q = p / 64
  · subst e; simp [h]
  · have e' : ¬ p / 64 = q := fun h => e h.symm
    simp [e, e']

/-- A word array is determined by its length and its bits. -/
theorem mem_ext {m m' : Mem} (hl : m.length = m'.length) (hb : ∀ p, bitAt m p = bitAt m' p) : m = m' := by
  apply List.ext_getElem hl
  intro i h1 h2
  apply BitVec.eq_of_getLsbD_eq
  intro j hj
  have := hb (64 * i + j)
  rwa [bitAt_mul_add hj h1, bitAt_mul_add hj h2] at this

theorem field_lt (m : Mem) (p len : Nat) : field m p len < 2 ^ len := bitsVal_lt _ _

theorem testBit_field (m : Mem) (p len i : Nat) :
    (field m p len).testBit i = (decide (i < len) && bitAt m (p + i)) := testBit_bitsVal _ _ _

theorem field_congr {m m' : Mem} {p p' len : Nat} (h : ∀ j, j < len → bitAt m (p + j) = bitAt m' (p' + j)) :
    field m p len = field m' p' len := bitsVal_congr h

theorem field_word {m : Mem} {q : Nat} (h : q < m.length) : field m (64 * q) 64 = m[q].toNat := by
  rw [← bitsVal_getLsbD]
  apply bitsVal_congr
  intro i hi
  exact bitAt_mul_add hi h

end Sdsl.Spec
