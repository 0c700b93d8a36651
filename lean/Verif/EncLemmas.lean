/-
  Correctness of `enc_vector` and `vlc_vector` relative to a coder contract.
-/
import Verif.Enc
import Verif.CoderSum
import Verif.CoderComma
import Verif.FibSum

namespace Sdsl

open Bits Spec Coder

/-- What the containers need from a coder: values satisfying `E` can be encoded, values satisfying `D` can be decoded. -/
structure VGood (c : VC) (bits : Word → List Bool) (E D : Word → Prop) : Prop where
  pos : ∀ w, 0 < (bits w).length
  lenLe : ∀ w, (bits w).length ≤ 255
  encLen : ∀ w, c.encLen w = some (bits w).length
  encode1 : ∀ {m : Mem} {pos : Nat} {w : Word}, E w → pos + (bits w).length ≤ 64 * m.length →
    ∃ m', c.encode1 m (pos / 64) (pos % 64) w = some (m', (pos + (bits w).length) / 64, (pos + (bits w).length) % 64) ∧
      WB m m' pos (bits w)
  last : ∀ {m : Mem} {start : Nat} {ys : List Word}, At m start (ys.flatMap bits) → (∀ w ∈ ys, D w) →
    c.last m start ys.length = some (ys.getLastD 0#64)
  sums : ∀ {m : Mem} {start : Nat} {ys : List Word}, At m start (ys.flatMap bits) → (∀ w ∈ ys, D w) →
    c.sums m start ys.length = some ((List.range ys.length).map (fun i => sumW (ys.take (i + 1))))

/-- Contract of `decode_prefix_sum` of at most `lim` codes, which may need `slack` readable bits after the codes. -/
def VPsum (c : VC) (bits : Word → List Bool) (D : Word → Prop) (slack lim : Nat) : Prop :=
  ∀ {m : Mem} {start : Nat} {ys : List Word}, At m start (ys.flatMap bits) → (∀ w ∈ ys, D w) → ys.length ≤ lim →
    start + (ys.flatMap bits).length + slack ≤ 64 * m.length → c.psum m start ys.length = some (sumW ys)

theorem vgood_elias {c : Code} {bits : Word → List Bool} (g : Coder.Good c bits) (hlen : ∀ w, (bits w).length ≤ 255) (sh : Option Word) :
    VGood (VC.elias sh c) bits (fun _ => True) (fun w => sh ≠ none ∨ w ≠ 0#64) where
  pos := g.pos
  lenLe := hlen
  encLen := g.encLen
  encode1 _ h := g.encode1 h
  last h hd := by
    show (Coder.decode c false sh _ _ _).map _ = _
    rw [Coder.decode_false g _ (by
      by_cases hs : sh = none
      · right; intro h0; have := hd _ h0; simp [hs] at this
      · exact Or.inl hs) h]; rfl
  sums h hd := by
    show (Coder.decode c true sh _ _ _).map _ = _
    rw [Coder.decode_true g _ (by
      by_cases hs : sh = none
      · right; intro h0; have := hd _ h0; simp [hs] at this
      · exact Or.inl hs) h]; rfl

theorem vpsum_elias {c : Code} {bits : Word → List Bool} (g : GoodSum c bits) (sh : Option Word) (lim : Nat) :
    VPsum (VC.elias sh c) bits (fun w => sh ≠ none ∨ w ≠ 0#64) 15 lim := by
  intro m start ys h hd _ hs
  exact prefixSum_eq g h hs (by
      by_cases hs : sh = none
      · right; intro h0; have := hd _ h0; simp [hs] at this
      · exact Or.inl hs)

theorem comma_sh {t : Nat} {b : Bool} {sh sh' : Option Word} {m : Mem} (n p o : Nat) (v : Word) :
    decLoop (comma t) b sh m n p o v = decLoop (comma t) b sh' m n p o v := by
  induction n generalizing p o v with
  | zero => rfl
  | succ n ih =>
    unfold decLoop
    show (((comma t).dec1 sh' m p o).bind _) = _
    congr 1
    funext r
    dsimp only
    rw [ih]

theorem gamma_len (w : Word) : (gammaBits w).length ≤ 255 := by
  rw [length_gammaBits]; have := lg_le w; omega

theorem delta_len (w : Word) : (deltaBits w).length ≤ 255 := by
  rw [length_deltaBits]; have := lg_le w; have := lg2_le w; omega

theorem comma_len {t : Nat} (h2 : 2 ≤ t) (h30 : t ≤ 30) (w : Word) : (commaBits t w).length ≤ 255 := by
  rw [length_commaBits]
  have h := (short h2 h30 w.isLt)
  omega

theorem vgood_comma {t : Nat} (h2 : 2 ≤ t) (h30 : t ≤ 30) : VGood (VC.comma t) (commaBits t) (fun _ => True) (fun _ => True) := by
  have g := good_comma h2 h30
  refine ⟨g.pos, comma_len h2 h30, g.encLen, fun _ h => g.encode1 h, ?_, ?_⟩
  · intro m start ys h _
    have e := Coder.decode_false (sh := some 0#64) g ys (Or.inl (by simp)) h
    show (Coder.decode (comma t) false none _ _ _).map _ = _
    have e2 : Coder.decode (comma t) false none m start ys.length = Coder.decode (comma t) false (some 0#64) m start ys.length :=
      comma_sh _ _ _ _
    rw [e2, e]; rfl
  · intro m start ys h _
    have e := Coder.decode_true (sh := some 0#64) g ys (Or.inl (by simp)) h
    show (Coder.decode (comma t) true none _ _ _).map _ = _
    have e2 : Coder.decode (comma t) true none m start ys.length = Coder.decode (comma t) true (some 0#64) m start ys.length :=
      comma_sh _ _ _ _
    rw [e2, e]; rfl

theorem vpsum_comma {t : Nat} (h2 : 2 ≤ t) (h30 : t ≤ 30) (lim : Nat) : VPsum (VC.comma t) (commaBits t) (fun _ => True) 0 lim := by
  intro m start ys h _ _ _
  have e := Coder.decode_true (sh := some 0#64) (good_comma h2 h30) ys (Or.inl (by simp)) h
  show (Coder.decode (comma t) true none _ _ _).map _ = _
  have e2 : Coder.decode (comma t) true none m start ys.length = Coder.decode (comma t) true (some 0#64) m start ys.length :=
    comma_sh _ _ _ _
  rw [e2, e]; rfl

theorem At.pad {m : Mem} {pos : Nat} {l : List Bool} (h : At m pos l) (pad : List Word) : At (m ++ pad) pos l := by
  refine ⟨by have := h.1; simp only [List.length_append]; omega, fun k hk => ?_⟩
  rw [← h.2 k hk]
  have := h.1
  unfold bitAt
  rw [List.getElem?_append_left (by omega)]

namespace Enc

/-- The encoded deltas. -/
def ds (dens : Nat) : Nat → Word → List Word → List Word
  | _, _, [] => []
  | 0, _, x :: l => ds dens (dens - 1) x l
  | k + 1, v1, x :: l => (x - v1) :: ds dens k x l

/-- The samples and pointers. -/
def ss (bits : Word → List Bool) (dens : Nat) : Nat → Nat → Word → List Word → List (Word × Nat)
  | _, _, _, [] => []
  | 0, z, _, x :: l => (x, z) :: ss bits dens (dens - 1) z x l
  | k + 1, z, v1, x :: l => ss bits dens k (z + (bits (x - v1)).length) x l

/-- `R v2 v1` holds for every pair of neighbours whose difference is encoded. -/
def AllD (R : Word → Word → Prop) (dens : Nat) : Nat → Word → List Word → Prop
  | _, _, [] => True
  | 0, _, x :: l => AllD R dens (dens - 1) x l
  | k + 1, v1, x :: l => R x v1 ∧ AllD R dens k x l

theorem allD_mono {R S : Word → Word → Prop} {dens : Nat} (h : ∀ a b, R a b → S a b) {k : Nat} {v1 : Word} {xs : List Word}
    (ha : AllD R dens k v1 xs) : AllD S dens k v1 xs := by
  induction xs generalizing k v1 with
  | nil => trivial
  | cons x l ih =>
    cases k with
    | zero => exact ih (k := dens - 1) (v1 := x) ha
    | succ k => exact ⟨h _ _ ha.1, ih ha.2⟩

/-- Indexed form of `AllD`. -/
theorem allD_of {R : Word → Word → Prop} {dens : Nat} (hd : 0 < dens) {k : Nat} {v1 : Word} {xs : List Word} (hk : k < dens)
    (h : ∀ i a b, (v1 :: xs)[i + 1]? = some a → (v1 :: xs)[i]? = some b → (i + dens - k) % dens ≠ 0 → R a b) : AllD R dens k v1 xs := by
  induction xs generalizing k v1 with
  | nil => trivial
  | cons x l ih =>
    have step : ∀ k', k' < dens → (∀ i, (i + dens - k') % dens = (i + 1 + dens - k) % dens) → AllD R dens k' x l := by
      intro k' hk' he
      apply ih hk'
      intro i a b h1 h2 h3
      exact h (i + 1) a b (by simpa using h1) (by simpa using h2) (by rw [← he]; exact h3)
    cases k with
    | zero =>
      apply step (dens - 1) (by omega)
      intro i
      rw [show i + dens - (dens - 1) = i + 1 by omega, Nat.sub_zero, Nat.add_mod_right]
    | succ k =>
      refine ⟨h 0 x v1 (by simp) (by simp) ?_, step k (by omega) (fun i => by rw [show i + 1 + dens - (k + 1) = i + dens - k by omega])⟩
      rw [Nat.mod_eq_of_lt (by omega)]; omega

theorem pass1_eq {c : VC} {bits : Word → List Bool} (hl : ∀ w, c.encLen w = some (bits w).length) {tw dens : Nat}
    {k : Nat} {v1 : Word} {xs : List Word} {mx : Word} {s z : Nat} (hD : AllD (fun a b => diff tw a b = a - b) dens k v1 xs) :
    ∃ mx', pass1 c tw dens xs k v1 mx s z = some (mx', s + (ss bits dens k z v1 xs).length, z + ((ds dens k v1 xs).flatMap bits).length) ∧
      mx.toNat ≤ mx'.toNat ∧ (∀ p ∈ ss bits dens k z v1 xs, p.1.toNat ≤ mx'.toNat) ∧
      ∀ B, mx.toNat < B → (∀ x ∈ xs, x.toNat < B) → mx'.toNat < B := by
  induction xs generalizing k v1 mx s z with
  | nil => exact ⟨mx, rfl, Nat.le_refl _, by simp [ss], fun _ h _ => h⟩
  | cons x l ih =>
    cases k with
    | zero =>
      obtain ⟨mx', h1, h2, h3, h4⟩ := ih (k := dens - 1) (v1 := x) (mx := if mx < x then x else mx) (s := s + 1) (z := z) hD
      have hm : mx.toNat ≤ (if mx < x then x else mx).toNat ∧ x.toNat ≤ (if mx < x then x else mx).toNat := by
        by_cases hlt : mx < x
        · have := BitVec.lt_def.1 hlt; simp only [hlt, if_true]; omega
        · have := mt BitVec.lt_def.2 hlt; simp only [hlt, if_false]; omega
      refine ⟨mx', ?_, by omega, ?_, ?_⟩
      · unfold pass1 ss ds
        rw [h1]
        simp only [List.length_cons]
        rw [show s + 1 + (ss bits dens (dens - 1) z x l).length = s + ((ss bits dens (dens - 1) z x l).length + 1) by omega]
      · intro p hp
        rw [ss, List.mem_cons] at hp
        rcases hp with rfl | hp
        · dsimp only; omega
        · exact h3 p hp
      · intro B hB hx
        apply h4 B _ (fun y hy => hx y (by simp [hy]))
        have := hx x (by simp)
        split <;> omega
    | succ k =>
      obtain ⟨mx', h1, h2, h3, h4⟩ := ih (k := k) (v1 := x) (mx := mx) (s := s) (z := z + (bits (x - v1)).length) hD.2
      refine ⟨mx', ?_, h2, ?_, fun B hB hx => h4 B hB (fun y hy => hx y (by simp [hy]))⟩
      · unfold pass1 ss ds
        rw [hD.1, hl, sbind, h1, List.flatMap_cons, List.length_append, Nat.add_assoc]
      · exact h3

theorem pass2_eq {c : VC} {bits : Word → List Bool} (hl : ∀ w, c.encLen w = some (bits w).length) {tw dens : Nat}
    {k : Nat} {v1 : Word} {xs : List Word} {sp : Arr} {j z : Nat} (hD : AllD (fun a b => diffX tw a b = a - b) dens k v1 xs)
    (hj : j + 2 * (ss bits dens k z v1 xs).length ≤ sp.xs.length) :
    pass2 c tw dens xs k v1 sp j z =
      some (⟨sp.width, sp.xs.take j ++ (ss bits dens k z v1 xs).flatMap (fun p => [p.1.toNat % 2 ^ sp.width, p.2 % 2 ^ sp.width]) ++
          sp.xs.drop (j + 2 * (ss bits dens k z v1 xs).length)⟩,
        j + 2 * (ss bits dens k z v1 xs).length, z + ((ds dens k v1 xs).flatMap bits).length) := by
  induction xs generalizing k v1 sp j z with
  | nil => simp [pass2, ss, ds]
  | cons x l ih =>
    cases k with
    | zero =>
      unfold ss at hj ⊢
      unfold pass2 ds
      simp only [List.length_cons] at hj
      rw [Arr.set_of_lt (by omega), sbind, Arr.set_of_lt (by simp; omega), sbind]
      dsimp only
      rw [ih (k := dens - 1) (v1 := x) hD (by simp; omega)]
      simp only [List.length_cons, List.flatMap_cons]
      generalize (ss bits dens (dens - 1) z x l).length = n at hj ⊢
      rw [show j + 2 + 2 * n = j + 2 * (n + 1) by omega]
      congr 3
      generalize x.toNat % 2 ^ sp.width = a
      generalize z % 2 ^ sp.width = b
      have e1 : List.take (j + 2) ((sp.xs.set j a).set (j + 1) b) = sp.xs.take j ++ [a, b] := by
        apply List.ext_getElem?
        intro i
        rw [List.getElem?_take, List.getElem?_append]
        simp only [List.length_take, List.getElem?_set, List.length_set, List.getElem?_take]
        rw [Nat.min_eq_left (by omega)]
        by_cases h1 : i < j
        · rw [if_pos (by omega), if_neg (by omega), if_neg (by omega), if_pos h1, if_pos h1]
        · rw [if_neg h1]
          by_cases h2 : i = j
          · subst h2; simp; omega
          · by_cases h3 : i = j + 1
            · subst h3; simp [show j + 1 - j = 1 by omega]; omega
            · rw [if_neg (by omega)]; symm; rw [List.getElem?_eq_none]; simp; omega
      have e2 : List.drop (j + 2 * (n + 1)) ((sp.xs.set j a).set (j + 1) b) = sp.xs.drop (j + 2 * (n + 1)) := by
        rw [List.drop_set_of_lt (by omega), List.drop_set_of_lt (by omega)]
      rw [e1, e2]; simp
    | succ k =>
      unfold ss at hj ⊢
      unfold pass2 ds
      rw [hD.1, hl, sbind, ih hD.2 hj, List.flatMap_cons, List.length_append, Nat.add_assoc z]

theorem pass3_eq {c : VC} {bits : Word → List Bool} {E D : Word → Prop} (g : VGood c bits E D) {tw dens : Nat}
    {k : Nat} {v1 : Word} {xs : List Word} {m : Mem} {pos : Nat} (hD : AllD (fun a b => diff tw a b = a - b ∧ E (a - b)) dens k v1 xs)
    (hroom : pos + ((ds dens k v1 xs).flatMap bits).length ≤ 64 * m.length) :
    ∃ m', pass3 c tw dens xs k v1 m (pos / 64) (pos % 64) = some m' ∧ WB m m' pos ((ds dens k v1 xs).flatMap bits) := by
  induction xs generalizing k v1 m pos with
  | nil => exact ⟨m, rfl, WB.nil _ _⟩
  | cons x l ih =>
    cases k with
    | zero =>
      unfold ds at hroom ⊢
      unfold pass3
      exact ih (k := dens - 1) (v1 := x) hD hroom
    | succ k =>
      unfold ds at hroom ⊢
      rw [List.flatMap_cons, List.length_append] at hroom
      obtain ⟨m1, a1, b1⟩ := g.encode1 (m := m) (pos := pos) hD.1.2 (by omega)
      obtain ⟨m2, a2, b2⟩ := ih (m := m1) (pos := pos + (bits (x - v1)).length) hD.2 (by rw [b1.length]; omega)
      refine ⟨m2, ?_, ?_⟩
      · unfold pass3
        rw [hD.1.1, a1, sbind]
        exact a2
      · rw [List.flatMap_cons]; exact b1.append b2

theorem passBuf_eq {c : VC} {dens : Nat} {k : Nat} {v1 : Word} {xs : List Word} {sp sp' : Arr} {j j' z z' : Nat} {m m' : Mem} {p off : Nat}
    (h2 : pass2 c 64 dens xs k v1 sp j z = some (sp', j', z')) (h3 : pass3 c 64 dens xs k v1 m p off = some m') :
    passBuf c dens xs k v1 sp j z m p off = some (sp', z', m') := by
  induction xs generalizing k v1 sp j z m p off with
  | nil => simp [pass2, pass3, passBuf] at h2 h3 ⊢; simp [h2, h3]
  | cons x l ih =>
    cases k with
    | zero =>
      unfold pass2 at h2
      unfold pass3 at h3
      unfold passBuf
      cases e1 : sp.set j x.toNat with
      | none => rw [e1] at h2; simp at h2
      | some sp1 =>
        rw [e1, sbind] at h2
        rw [sbind]
        cases e2 : sp1.set (j + 1) z with
        | none => rw [e2] at h2; simp at h2
        | some sp2 =>
          rw [e2, sbind] at h2
          rw [sbind]
          exact ih h2 h3
    | succ k =>
      have hx : diffX 64 x v1 = x - v1 := by
        unfold diffX; rw [Nat.mod_eq_of_lt (BitVec.isLt _), BitVec.ofNat_toNat]; simp
      unfold pass2 at h2
      unfold pass3 at h3
      unfold passBuf
      rw [hx] at h2
      rw [show diff 64 x v1 = x - v1 from rfl] at h3
      cases e1 : c.encLen (x - v1) with
      | none => rw [e1] at h2; simp at h2
      | some n =>
        rw [e1, sbind] at h2
        rw [sbind]
        cases e2 : c.encode1 m p off (x - v1) with
        | none => rw [e2] at h3; simp at h3
        | some r =>
          rw [e2, sbind] at h3
          rw [sbind]
          exact ih h2 h3

/-- Where the value of index `i` is found. -/
theorem find {bits : Word → List Bool} {dens : Nat} (hd : 0 < dens) {xs : List Word} {k : Nat} {v1 : Word} (z : Nat) {i : Nat} {x : Word}
    (hi : xs[i]? = some x) :
    (i < k → i + 1 ≤ (ds dens k v1 xs).length ∧ x = v1 + sumW ((ds dens k v1 xs).take (i + 1))) ∧
    (k ≤ i → ∃ s q, (ss bits dens k z v1 xs)[(i - k) / dens]? = some (s, z + (((ds dens k v1 xs).take q).flatMap bits).length) ∧
      q + (i - k) % dens ≤ (ds dens k v1 xs).length ∧ xs[i - (i - k) % dens]? = some s ∧
      x = s + sumW (((ds dens k v1 xs).drop q).take ((i - k) % dens))) := by
  induction xs generalizing k v1 z i with
  | nil => simp at hi
  | cons y l ih =>
    cases k with
    | zero =>
      refine ⟨by omega, fun _ => ?_⟩
      unfold ss ds
      cases i with
      | zero =>
        simp only [List.getElem?_cons_zero, Option.some.injEq] at hi
        subst hi
        exact ⟨y, 0, by simp, by simp, by simp, by simp [sumW]⟩
      | succ i =>
        rw [List.getElem?_cons_succ] at hi
        obtain ⟨h1, h2⟩ := ih (k := dens - 1) (v1 := y) z hi
        by_cases hlt : i < dens - 1
        · obtain ⟨a, b⟩ := h1 hlt
          rw [Nat.sub_zero, Nat.div_eq_of_lt (by omega), Nat.mod_eq_of_lt (by omega)]
          exact ⟨y, 0, by simp, by simpa using a, by simp, by simpa using b⟩
        · obtain ⟨s, q, a, b, b', d⟩ := h2 (by omega)
          have e : i + 1 = (i - (dens - 1)) + dens := by omega
          have em : (i + 1 - 0) % dens = (i - (dens - 1)) % dens := by
            rw [Nat.sub_zero, e, Nat.add_mod_right]
          have ed : (i + 1 - 0) / dens = (i - (dens - 1)) / dens + 1 := by
            rw [Nat.sub_zero, e, Nat.add_div_right _ hd]
          rw [em, ed]
          refine ⟨s, q, by simpa using a, b, ?_, d⟩
          have hm : (i - (dens - 1)) % dens ≤ i := Nat.le_trans (Nat.mod_le _ _) (by omega)
          rw [show i + 1 - (i - (dens - 1)) % dens = (i - (i - (dens - 1)) % dens) + 1 by omega, List.getElem?_cons_succ]
          exact b'
    | succ k =>
      unfold ss ds
      cases i with
      | zero =>
        simp only [List.getElem?_cons_zero, Option.some.injEq] at hi
        subst hi
        refine ⟨fun _ => ⟨by simp, ?_⟩, by omega⟩
        simp [sumW, BitVec.add_comm v1, BitVec.sub_add_cancel]
      | succ i =>
        rw [List.getElem?_cons_succ] at hi
        obtain ⟨h1, h2⟩ := ih (k := k) (v1 := y) (z + (bits (y - v1)).length) hi
        constructor
        · intro hlt
          obtain ⟨a, b⟩ := h1 (by omega)
          refine ⟨by simpa using a, ?_⟩
          rw [List.take_succ_cons, sumW_cons, b, ← BitVec.add_assoc]
          congr 1
          rw [BitVec.add_comm, BitVec.sub_add_cancel]
        · intro hge
          obtain ⟨s, q, a, b, b', d⟩ := h2 (by omega)
          rw [show i + 1 - (k + 1) = i - k by omega]
          refine ⟨s, q + 1, ?_, ?_, ?_, ?_⟩
          · rw [a, List.take_succ_cons, List.flatMap_cons, List.length_append, Nat.add_assoc]
          · simp only [List.length_cons]; omega
          · have hm : (i - k) % dens ≤ i := Nat.le_trans (Nat.mod_le _ _) (by omega)
            rw [show i + 1 - (i - k) % dens = (i - (i - k) % dens) + 1 by omega, List.getElem?_cons_succ]
            exact b'
          · simpa using d

theorem pairs_get (l : List (Nat × Nat)) (i : Nat) :
    (l.flatMap (fun p => [p.1, p.2]))[2 * i]? = l[i]?.map (·.1) ∧ (l.flatMap (fun p => [p.1, p.2]))[2 * i + 1]? = l[i]?.map (·.2) := by
  induction l generalizing i with
  | nil => simp
  | cons p l ih =>
    rw [List.flatMap_cons]
    cases i with
    | zero => simp
    | succ i =>
      rw [show 2 * (i + 1) = 2 * i + 1 + 1 by omega]
      simpa using ih i

theorem sampleWidth_eq {sw : Nat} {mx : Word} {z : Nat} (hsw : sw = 0 ∨ mx.toNat < 2 ^ sw ∧ z + 1 < 2 ^ sw) (hz : z + 1 < 2 ^ 64) :
    ∃ w, sampleWidth sw mx z = some w ∧ mx.toNat < 2 ^ w ∧ z + 1 < 2 ^ w := by
  unfold sampleWidth
  by_cases h0 : sw = 0
  · rw [if_neg (by simp [h0])]
    by_cases hgt : mx.toNat > z + 1
    · rw [if_pos hgt, hi_eq, sbind]
      have := Nat.lt_log2_self (n := mx.toNat)
      exact ⟨_, rfl, this, by omega⟩
    · rw [if_neg hgt, hi_eq, sbind]
      have := Nat.lt_log2_self (n := (BitVec.ofNat 64 (z + 1)).toNat)
      refine ⟨_, rfl, ?_, ?_⟩
      all_goals
        rw [BitVec.toNat_ofNat, Nat.mod_eq_of_lt hz] at this ⊢
        omega
  · rw [if_pos h0]
    exact ⟨sw, rfl, by omega, by omega⟩

/-- `e` represents `xs`. -/
structure Rep (bits : Word → List Bool) (dens : Nat) (v1 : Word) (xs : List Word) (e : Vec) : Prop where
  size : e.size = xs.length
  zlen : e.z.length = e.zbits / 64 + 1
  zbits : e.zbits = ((ds dens 0 v1 xs).flatMap bits).length
  codes : At e.z 0 ((ds dens 0 v1 xs).flatMap bits)
  sp : ∀ j p, (ss bits dens 0 0 v1 xs)[j]? = some p → e.sp.get (2 * j) = some p.1.toNat ∧ e.sp.get (2 * j + 1) = some p.2

theorem ds_len {dens : Nat} {k : Nat} {v1 : Word} {xs : List Word} : (ds dens k v1 xs).length ≤ xs.length := by
  induction xs generalizing k v1 with
  | nil => simp [ds]
  | cons x l ih =>
    cases k with
    | zero => unfold ds; have := ih (k := dens - 1) (v1 := x); simp only [List.length_cons]; omega
    | succ k => unfold ds; have := ih (k := k) (v1 := x); simp only [List.length_cons]; omega

theorem flat_len {bits : Word → List Bool} (h : ∀ w, (bits w).length ≤ 255) (l : List Word) : (l.flatMap bits).length ≤ 255 * l.length := by
  induction l with
  | nil => simp
  | cons w l ih => rw [List.flatMap_cons, List.length_append, List.length_cons]; have := h w; omega

theorem ss_le {bits : Word → List Bool} {dens k z : Nat} {v1 : Word} {xs : List Word} :
    ∀ p ∈ ss bits dens k z v1 xs, p.1 ∈ xs ∧ p.2 ≤ z + ((ds dens k v1 xs).flatMap bits).length := by
  induction xs generalizing k v1 z with
  | nil => simp [ss]
  | cons x l ih =>
    cases k with
    | zero =>
      unfold ss ds
      intro p hp
      rw [List.mem_cons] at hp
      rcases hp with rfl | hp
      · exact ⟨by simp, by dsimp only; omega⟩
      · have := ih p hp; exact ⟨by simp [this.1], this.2⟩
    | succ k =>
      unfold ss ds
      intro p hp
      have := ih p hp
      rw [List.flatMap_cons, List.length_append]
      exact ⟨by simp [this.1], by omega⟩

/-- The common part of both constructors. -/
theorem build {c : VC} {bits : Word → List Bool} {E D : Word → Prop} (g : VGood c bits E D) {tw dens sw : Nat} {v1 : Word} {xs : List Word}
    (hD : AllD (fun a b => diff tw a b = a - b ∧ diffX tw a b = a - b ∧ E (a - b)) dens 0 v1 xs)
    (hsw : sw = 0 ∨ (∀ x ∈ xs, x.toNat < 2 ^ sw) ∧ 255 * xs.length + 1 < 2 ^ sw) (hlen : 255 * xs.length + 1 < 2 ^ 64) :
    ∃ mx n zb w sp m, pass1 c tw dens xs 0 v1 0#64 0 0 = some (mx, n, zb) ∧ sampleWidth sw mx zb = some w ∧
      pass2 c tw dens xs 0 v1 ⟨w, List.replicate (2 * n + 2) 0⟩ 0 0 = some (⟨w, sp ++ [0, 0]⟩, 2 * n, zb) ∧ sp.length = 2 * n ∧
      pass3 c tw dens xs 0 v1 (List.replicate ((zb + 64) / 64) 0#64) 0 0 = some m ∧
      ∀ t, Rep bits dens v1 xs ⟨m, zb, ⟨w, sp ++ t⟩, xs.length⟩ := by
  obtain ⟨mx, h1, _, h3, h4⟩ := pass1_eq (mx := 0#64) (s := 0) (z := 0) g.encLen (allD_mono (fun a b h => h.1) hD)
  have hzb : ((ds dens 0 v1 xs).flatMap bits).length ≤ 255 * xs.length := by
    have := flat_len g.lenLe (ds dens 0 v1 xs)
    have := ds_len (dens := dens) (k := 0) (v1 := v1) (xs := xs)
    omega
  rw [Nat.zero_add, Nat.zero_add] at h1
  obtain ⟨w, w1, w2, w3⟩ := sampleWidth_eq (sw := sw) (mx := mx) (z := ((ds dens 0 v1 xs).flatMap bits).length) (by
    rcases hsw with h | h
    · exact Or.inl h
    · exact Or.inr ⟨h4 _ (by have := Nat.two_pow_pos sw; simpa using this) h.1, by omega⟩) (by omega)
  have h2 := pass2_eq (sp := ⟨w, List.replicate (2 * (ss bits dens 0 0 v1 xs).length + 2) 0⟩) (j := 0) (z := 0) g.encLen
    (allD_mono (fun a b h => h.2.1) hD) (by simp)
  obtain ⟨m, m1, m2⟩ := pass3_eq (pos := 0) (m := List.replicate ((((ds dens 0 v1 xs).flatMap bits).length + 64) / 64) 0#64) g
    (allD_mono (fun a b h => ⟨h.1, h.2.2⟩) hD) (by rw [List.length_replicate]; omega)
  have m3 := m2.at (by rw [List.length_replicate]; omega)
  have hfl : ∀ l : List (Word × Nat), (l.flatMap (fun p => [p.1.toNat % 2 ^ w, p.2 % 2 ^ w])).length = 2 * l.length := by
    intro l
    induction l with
    | nil => rfl
    | cons p l ih => simp only [List.flatMap_cons, List.length_append, List.length_cons, List.length_nil, ih]; omega
  refine ⟨mx, _, _, w, (ss bits dens 0 0 v1 xs).flatMap (fun p => [p.1.toNat % 2 ^ w, p.2 % 2 ^ w]), m, h1, w1, ?_, hfl _, m1, ?_⟩
  · rw [h2]; simp
  · intro t
    refine ⟨rfl, ?_, rfl, m3, ?_⟩
    · show m.length = _
      rw [m2.length, List.length_replicate]
      show (((ds dens 0 v1 xs).flatMap bits).length + 64) / 64 = ((ds dens 0 v1 xs).flatMap bits).length / 64 + 1
      omega
    · intro j p hp
      have hlt : j < (ss bits dens 0 0 v1 xs).length := (List.getElem?_eq_some_iff.1 hp).1
      have hmem : p ∈ ss bits dens 0 0 v1 xs := List.mem_of_getElem? hp
      have e : (ss bits dens 0 0 v1 xs).flatMap (fun p => [p.1.toNat % 2 ^ w, p.2 % 2 ^ w]) =
          ((ss bits dens 0 0 v1 xs).map (fun p => (p.1.toNat % 2 ^ w, p.2 % 2 ^ w))).flatMap (fun p => [p.1, p.2]) := by
        rw [List.flatMap_map]
      have hp1 : p.1.toNat % 2 ^ w = p.1.toNat := Nat.mod_eq_of_lt (by have := h3 p hmem; omega)
      have hp2 : p.2 % 2 ^ w = p.2 := Nat.mod_eq_of_lt (by have := (ss_le p hmem).2; omega)
      unfold Arr.get
      dsimp only
      rw [List.getElem?_append_left (by rw [hfl]; omega), List.getElem?_append_left (by rw [hfl]; omega), e]
      have q := pairs_get ((ss bits dens 0 0 v1 xs).map (fun p => (p.1.toNat % 2 ^ w, p.2 % 2 ^ w))) j
      rw [q.1, q.2, List.getElem?_map, hp]
      simp [hp1, hp2]

theorem construct_eq {c : VC} {bits : Word → List Bool} {E D : Word → Prop} (g : VGood c bits E D) {tw dens sw : Nat} {x : Word} {l : List Word}
    (hD : AllD (fun a b => diff tw a b = a - b ∧ diffX tw a b = a - b ∧ E (a - b)) dens 0 x (x :: l))
    (hsw : sw = 0 ∨ (∀ y ∈ x :: l, y.toNat < 2 ^ sw) ∧ 255 * (x :: l).length + 1 < 2 ^ sw) (hlen : 255 * (x :: l).length + 1 < 2 ^ 64) :
    ∃ e, construct c tw dens sw (x :: l) = some e ∧ Rep bits dens x (x :: l) e := by
  obtain ⟨mx, n, zb, w, sp, m, h1, h2, h3, hl, h4, h5⟩ := build g hD hsw hlen
  refine ⟨⟨m, zb, ⟨w, sp ++ [0 % 2 ^ w, (zb + 1) % 2 ^ w]⟩, (x :: l).length⟩, ?_, h5 _⟩
  unfold construct
  dsimp only
  rw [h1, sbind]; dsimp only
  rw [h2, sbind, h3, sbind]; dsimp only
  rw [Arr.set_of_lt (by simp; omega), sbind, Arr.set_of_lt (by simp; omega), sbind, h4, sbind]
  dsimp only
  congr 3
  rw [List.set_append_right _ _ (by omega), List.set_append_right _ _ (by omega), hl, Nat.sub_self, show 2 * n + 1 - 2 * n = 1 by omega]
  rfl

theorem constructBuf_eq {c : VC} {bits : Word → List Bool} {E D : Word → Prop} (g : VGood c bits E D) {dens sw : Nat} {xs : List Word}
    (hne : xs ≠ [])
    (hD : AllD (fun a b => E (a - b)) dens 0 0#64 xs)
    (hsw : sw = 0 ∨ (∀ y ∈ xs, y.toNat < 2 ^ sw) ∧ 255 * xs.length + 1 < 2 ^ sw) (hlen : 255 * xs.length + 1 < 2 ^ 64) :
    ∃ e, constructBuf c dens sw xs = some e ∧ Rep bits dens 0#64 xs e := by
  obtain ⟨mx, n, zb, w, sp, m, h1, h2, h3, hl, h4, h5⟩ := build (tw := 64) g (allD_mono (fun a b h => ⟨rfl, by
    unfold diffX; rw [Nat.mod_eq_of_lt (BitVec.isLt _), BitVec.ofNat_toNat]; simp, h⟩) hD) hsw hlen
  refine ⟨⟨m, zb, ⟨w, sp ++ [0, 0]⟩, xs.length⟩, ?_, h5 _⟩
  unfold constructBuf
  rw [if_neg hne, h1, sbind]; dsimp only
  rw [h2, sbind, passBuf_eq h3 h4, sbind]
  rfl

theorem ds_all {R : Word → Prop} {dens : Nat} {k : Nat} {v1 : Word} {xs : List Word} (h : AllD (fun a b => R (a - b)) dens k v1 xs) :
    ∀ d ∈ ds dens k v1 xs, R d := by
  induction xs generalizing k v1 with
  | nil => simp [ds]
  | cons x l ih =>
    cases k with
    | zero => exact ih (k := dens - 1) (v1 := x) h
    | succ k =>
      intro d hd
      rw [ds, List.mem_cons] at hd
      rcases hd with rfl | hd
      · exact h.1
      · exact ih h.2 d hd

theorem take_take_flat (bits : Word → List Bool) {l : List Word} {q r : Nat} {m : Mem} (h : At m 0 (l.flatMap bits)) :
    At m ((l.take q).flatMap bits).length (((l.drop q).take r).flatMap bits) := by
  have e : l.flatMap bits = (l.take q).flatMap bits ++ (((l.drop q).take r).flatMap bits ++ ((l.drop q).drop r).flatMap bits) := by
    rw [← List.flatMap_append, ← List.flatMap_append, List.take_append_drop, List.take_append_drop]
  rw [e, At.append, At.append, Nat.zero_add] at h
  exact h.2.1

theorem get_eq {c : VC} {bits : Word → List Bool} {E D : Word → Prop} (_g : VGood c bits E D) {slack : Nat} {dens : Nat} (gp : VPsum c bits D slack (dens - 1))
    (hd : 0 < dens) {v1 : Word} {xs : List Word} {e : Vec} (h : Rep bits dens v1 xs e) (hD : AllD (fun a b => D (a - b)) dens 0 v1 xs)
    {i : Nat} {x : Word} (hi : xs[i]? = some x) (pad : List Word) (hs : e.zbits + slack ≤ 64 * (e.z.length + pad.length)) :
    get c dens e pad i = some x := by
  obtain ⟨s, q, a, b, _, d⟩ := (find (bits := bits) (v1 := v1) hd 0 hi).2 (Nat.zero_le _)
  rw [Nat.sub_zero] at a b d
  obtain ⟨p1, p2⟩ := h.sp _ _ a
  unfold get
  dsimp only at p1 p2 ⊢
  rw [p1, sbind, p2, sbind, Nat.zero_add]
  have hat := take_take_flat bits (q := q) (r := i % dens) h.codes
  have hle : (((ds dens 0 v1 xs).take q).flatMap bits).length + ((((ds dens 0 v1 xs).drop q).take (i % dens)).flatMap bits).length ≤ e.zbits := by
    rw [h.zbits]
    conv => rhs; rw [← List.take_append_drop q (ds dens 0 v1 xs), List.flatMap_append, List.length_append,
      ← List.take_append_drop (i % dens) ((ds dens 0 v1 xs).drop q), List.flatMap_append, List.length_append]
    omega
  have := gp (At.pad hat pad) (fun w hw => ds_all hD w (List.mem_of_mem_drop (List.mem_of_mem_take hw)))
    (by rw [List.length_take]; have := Nat.mod_lt i hd; omega) (by rw [List.length_append]; omega)
  rw [List.length_take, List.length_drop, Nat.min_eq_left (by omega)] at this
  rw [show i - dens * (i / dens) = i % dens by have := Nat.div_add_mod i dens; omega, this, sbind, d]
  simp

theorem sample_eq {bits : Word → List Bool} {dens : Nat} (hd : 0 < dens) {v1 : Word} {xs : List Word} {e : Vec} (h : Rep bits dens v1 xs e)
    {i : Nat} {x : Word} (hi : xs[i * dens]? = some x) : sample e i = some x := by
  obtain ⟨s, q, a, _, b, _⟩ := (find (bits := bits) (v1 := v1) hd 0 hi).2 (Nat.zero_le _)
  rw [Nat.sub_zero, Nat.mul_div_cancel _ hd] at a
  rw [Nat.sub_zero, Nat.mul_mod_left, Nat.sub_zero, hi] at b
  unfold sample
  rw [(h.sp _ _ a).1, sbind]
  simp at b
  simp [b]

theorem flat_take_inj {bits : Word → List Bool} (hp : ∀ w, 0 < (bits w).length) {l : List Word} {q r : Nat} (hq : q ≤ l.length) (hr : r ≤ l.length)
    (h : ((l.take q).flatMap bits).length = ((l.take r).flatMap bits).length) : q = r := by
  induction l generalizing q r with
  | nil => simp at hq hr; omega
  | cons w l ih =>
    have := hp w
    cases q with
    | zero =>
      cases r with
      | zero => rfl
      | succ r => simp only [List.take_zero, List.flatMap_nil, List.length_nil, List.take_succ_cons, List.flatMap_cons, List.length_append] at h; omega
    | succ q =>
      cases r with
      | zero => simp only [List.take_zero, List.flatMap_nil, List.length_nil, List.take_succ_cons, List.flatMap_cons, List.length_append] at h; omega
      | succ r =>
        simp only [List.take_succ_cons, List.flatMap_cons, List.length_append] at h
        simp only [List.length_cons] at hq hr
        have := ih (q := q) (r := r) (by omega) (by omega) (by omega)
        omega

theorem inter_eq {c : VC} {bits : Word → List Bool} {E D : Word → Prop} (g : VGood c bits E D) {dens : Nat}
    (hd : 0 < dens) {v1 : Word} {xs : List Word} {e : Vec} (h : Rep bits dens v1 xs e) (hD : AllD (fun a b => D (a - b)) dens 0 v1 xs)
    {i : Nat} (hi : i * dens < xs.length) :
    inter c dens e i = some ((List.range (min dens (xs.length - i * dens))).map (fun j => xs.getD (i * dens + j) 0#64 - xs.getD (i * dens) 0#64)) := by
  have hcnt : (if i * dens + dens - 1 < e.size then dens - 1 else e.size - i * dens - 1) = min dens (xs.length - i * dens) - 1 := by
    rw [h.size]; split <;> omega
  have hj : ∀ j, j < min dens (xs.length - i * dens) → (i * dens + j) / dens = i ∧ (i * dens + j) % dens = j := by
    intro j hj
    have h1 : (i * dens + j) / dens = i := by
      rw [Nat.mul_comm, Nat.mul_add_div hd, Nat.div_eq_of_lt (by omega), Nat.add_zero]
    exact ⟨h1, by rw [Nat.add_comm, Nat.add_mul_mod_self_right, Nat.mod_eq_of_lt (by omega)]⟩
  have hx : ∀ j, j < min dens (xs.length - i * dens) → xs[i * dens + j]? = some (xs.getD (i * dens + j) 0#64) := by
    intro j hj
    rw [List.getD_eq_getElem?_getD, List.getElem?_eq_getElem (by omega)]; rfl
  generalize hc : min dens (xs.length - i * dens) = cnt at *
  have hc0 : 0 < cnt := by omega
  obtain ⟨s, q, a, b, b', d⟩ := (find (bits := bits) (v1 := v1) hd 0 (hx (cnt - 1) (by omega))).2 (Nat.zero_le _)
  rw [Nat.sub_zero, (hj _ (by omega)).1] at a
  rw [Nat.sub_zero, (hj _ (by omega)).2] at b b'
  rw [show i * dens + (cnt - 1) - (cnt - 1) = i * dens + 0 by omega, hx 0 hc0, Nat.add_zero] at b'
  simp only [Option.some.injEq] at b'
  have hval : ∀ j, j < cnt → xs.getD (i * dens + j) 0#64 = s + sumW (((ds dens 0 v1 xs).drop q).take j) := by
    intro j hlt
    obtain ⟨s', q', a', c', _, d'⟩ := (find (bits := bits) (v1 := v1) hd 0 (hx j hlt)).2 (Nat.zero_le _)
    rw [Nat.sub_zero, (hj _ hlt).1, a] at a'
    rw [Nat.sub_zero, (hj _ hlt).2] at c' d'
    simp only [Option.some.injEq, Prod.mk.injEq, Nat.zero_add] at a'
    have : q = q' := flat_take_inj g.pos (by omega) (by omega) a'.2
    rw [d', ← this, a'.1]
  unfold inter
  have p2 := (h.sp _ _ a).2
  rw [p2, sbind, hcnt]
  have hat := take_take_flat bits (q := q) (r := cnt - 1) h.codes
  have := g.sums hat (fun w hw => ds_all hD w (List.mem_of_mem_drop (List.mem_of_mem_take hw)))
  rw [List.length_take, List.length_drop, Nat.min_eq_left (by omega)] at this
  dsimp only
  rw [Nat.zero_add, this, sbind]
  congr 1
  apply List.ext_getElem
  · simp; omega
  · intro j h1 h2
    simp only [List.length_map, List.length_range] at h2
    cases j with
    | zero => simp [BitVec.sub_self]
    | succ j =>
      simp only [List.getElem_cons_succ, List.getElem_map, List.getElem_range]
      rw [hval (j + 1) h2, b', List.take_take, Nat.min_eq_left (by omega), BitVec.add_comm, BitVec.add_sub_cancel]

end Enc

namespace Vlc

theorem inc_toNat {tw : Nat} {x : Word} : inc tw x = 0#64 ∨ 1 ≤ (inc tw x).toNat := by
  by_cases h : inc tw x = 0#64
  · exact Or.inl h
  · right
    have : (inc tw x).toNat ≠ 0 := fun h0 => h (BitVec.eq_of_toNat_eq (by simpa using h0))
    omega

theorem pass1_ok {c : VC} {bits : Word → List Bool} (hl : ∀ w, c.encLen w = some (bits w).length) {tw : Nat} {xs : List Word} {z : Nat}
    (h : ∀ x ∈ xs, inc tw x ≠ 0#64) : pass1 c tw xs z = some (.ok (z + ((xs.map (inc tw)).flatMap bits).length)) := by
  induction xs generalizing z with
  | nil => rfl
  | cons x l ih =>
    unfold pass1
    have h1 := inc_toNat (tw := tw) (x := x)
    have h2 := h x (by simp)
    have h3 := h1.resolve_left h2
    rw [if_neg (by omega), hl, sbind, ih (fun y hy => h y (by simp [hy])), List.map_cons,
      List.flatMap_cons, List.length_append, Nat.add_assoc]

theorem pass1_error {c : VC} {bits : Word → List Bool} (hl : ∀ w, c.encLen w = some (bits w).length) {tw : Nat} {xs : List Word} {z : Nat} {x : Word}
    (hx : x ∈ xs) (h0 : inc tw x = 0#64) : pass1 c tw xs z = some (.error "vlc_vector cannot decode values smaller than 1!") := by
  induction xs generalizing z with
  | nil => simp at hx
  | cons y l ih =>
    unfold pass1
    by_cases hy : (inc tw y).toNat < 1
    · rw [if_pos hy]
    · rw [if_neg hy, hl, sbind]
      rw [List.mem_cons] at hx
      rcases hx with rfl | hx
      · simp [h0] at hy
      · exact ih hx

/-- The pointers. -/
def ps (bits : Word → List Bool) (dens : Nat) : Nat → Nat → List Word → List Nat
  | _, _, [] => []
  | 0, z, w :: l => z :: ps bits dens (dens - 1) (z + (bits w).length) l
  | k + 1, z, w :: l => ps bits dens k (z + (bits w).length) l

theorem ps_get {bits : Word → List Bool} {dens : Nat} (hd : 0 < dens) {l : List Word} {k z j : Nat} (h : k + dens * j < l.length) :
    (ps bits dens k z l)[j]? = some (z + ((l.take (k + dens * j)).flatMap bits).length) := by
  induction l generalizing k z j with
  | nil => simp at h
  | cons w l ih =>
    simp only [List.length_cons] at h
    cases k with
    | zero =>
      unfold ps
      cases j with
      | zero => simp
      | succ j =>
        rw [Nat.mul_succ] at h ⊢
        rw [List.getElem?_cons_succ, ih (by omega), show 0 + (dens * j + dens) = (dens - 1 + dens * j) + 1 by omega, List.take_succ_cons,
          List.flatMap_cons, List.length_append, Nat.add_assoc]
    | succ k =>
      unfold ps
      rw [ih (by omega), show k + 1 + dens * j = (k + dens * j) + 1 by omega, List.take_succ_cons,
          List.flatMap_cons, List.length_append, Nat.add_assoc]

theorem ps_len {bits : Word → List Bool} {dens : Nat} (hd : 0 < dens) {l : List Word} {k z : Nat} (hk : k < dens) :
    (ps bits dens k z l).length = (l.length + dens - 1 - k) / dens := by
  induction l generalizing k z with
  | nil => simp [ps]; rw [Nat.div_eq_of_lt (by omega)]
  | cons w l ih =>
    cases k with
    | zero =>
      unfold ps
      rw [List.length_cons, ih (by omega), List.length_cons]
      rw [show l.length + 1 + dens - 1 - 0 = (l.length + dens - 1 - (dens - 1)) + dens by omega, Nat.add_div_right _ hd]
    | succ k =>
      unfold ps
      rw [ih (by omega), List.length_cons]
      congr 1; omega

theorem point_eq {bits : Word → List Bool} {dens : Nat} (hd : 0 < dens) {k : Nat} {sp : Arr} {j z : Nat} {w : Word} {l : List Word}
    (hj : j + (ps bits dens k z (w :: l)).length ≤ sp.xs.length) :
    ∃ k' sp' j', point dens k sp j z = some (k' + 1, sp', j') ∧ sp'.width = sp.width ∧ sp'.xs.length = sp.xs.length ∧
      j' + (ps bits dens k' (z + (bits w).length) l).length = j + (ps bits dens k z (w :: l)).length ∧
      (∀ n, j + (ps bits dens k z (w :: l)).length ≤ n → sp'.xs.drop n = sp.xs.drop n) ∧
      sp'.xs.take j' ++ (ps bits dens k' (z + (bits w).length) l).map (· % 2 ^ sp.width) =
        sp.xs.take j ++ (ps bits dens k z (w :: l)).map (· % 2 ^ sp.width) := by
  cases k with
  | zero =>
    have e : ps bits dens 0 z (w :: l) = z :: ps bits dens (dens - 1) (z + (bits w).length) l := by rw [ps]
    rw [e] at hj ⊢
    simp only [List.length_cons] at hj
    refine ⟨dens - 1, ⟨sp.width, sp.xs.set j (z % 2 ^ sp.width)⟩, j + 1, ?_, rfl, ?_, ?_, ?_, ?_⟩
    · unfold point
      rw [if_pos rfl, Arr.set_of_lt (x := z) (by omega), sbind, show dens - 1 + 1 = dens by omega]
      rfl
    · simp
    · simp only [List.length_cons]; omega
    · intro n hn
      simp only [List.length_cons] at hn
      dsimp only
      rw [List.drop_set_of_lt (by omega)]
    · dsimp only
      rw [List.take_add_one, List.take_set_of_le (by omega)]
      simp [show j < sp.xs.length by omega]
  | succ k =>
    exact ⟨k, sp, j, by simp [point], rfl, rfl, by rw [ps], fun _ _ => rfl, by rw [ps]⟩

theorem pass2_eq {c : VC} {bits : Word → List Bool} {E D : Word → Prop} (g : VGood c bits E D) {tw dens : Nat} (hd : 0 < dens)
    {k : Nat} {xs : List Word} {sp : Arr} {j z : Nat} {m : Mem} {pos : Nat} (hE : ∀ x ∈ xs, E (inc tw x))
    (hj : j + (ps bits dens k z (xs.map (inc tw))).length ≤ sp.xs.length)
    (hroom : pos + ((xs.map (inc tw)).flatMap bits).length ≤ 64 * m.length) :
    ∃ m', pass2 c tw dens xs k sp j z m (pos / 64) (pos % 64) =
      some (⟨sp.width, sp.xs.take j ++ (ps bits dens k z (xs.map (inc tw))).map (· % 2 ^ sp.width) ++
          sp.xs.drop (j + (ps bits dens k z (xs.map (inc tw))).length)⟩, m') ∧
      WB m m' pos ((xs.map (inc tw)).flatMap bits) := by
  induction xs generalizing k sp j z m pos with
  | nil => exact ⟨m, by simp [pass2, ps], WB.nil _ _⟩
  | cons x l ih =>
    rw [List.map_cons] at hj hroom ⊢
    rw [List.flatMap_cons, List.length_append] at hroom
    obtain ⟨k', sp', j', p1, p2, p3, p4, p5, p6⟩ := point_eq hd hj
    obtain ⟨m1, a1, b1⟩ := g.encode1 (m := m) (pos := pos) (hE x (by simp)) (by omega)
    obtain ⟨m2, a2, b2⟩ := ih (k := k') (sp := sp') (j := j') (z := z + (bits (inc tw x)).length) (m := m1)
      (pos := pos + (bits (inc tw x)).length) (fun y hy => hE y (by simp [hy])) (by rw [p4, p3]; exact hj) (by rw [b1.length]; omega)
    refine ⟨m2, ?_, ?_⟩
    · unfold pass2
      rw [p1, sbind, a1, sbind, g.encLen, sbind]
      dsimp only
      rw [Nat.add_sub_cancel, a2, p4, p5 _ (Nat.le_refl _), p2, p6]
    · rw [List.flatMap_cons]; exact b1.append b2

theorem construct_ok {c : VC} {bits : Word → List Bool} {E D : Word → Prop} (g : VGood c bits E D) {tw dens : Nat} (hd : 0 < dens)
    (junk : Nat → Word) {xs : List Word} (hne : xs ≠ []) (h0 : ∀ x ∈ xs, inc tw x ≠ 0#64) (hE : ∀ x ∈ xs, E (inc tw x)) (hlen : 255 * xs.length + 1 < 2 ^ 64) :
    ∃ e, construct c tw dens junk xs = some (.ok e) ∧ e.size = xs.length ∧ At e.z 0 ((xs.map (inc tw)).flatMap bits) ∧
      ∀ i, i < xs.length → e.sp.get (i / dens) = some (((xs.map (inc tw)).take (dens * (i / dens))).flatMap bits).length := by
  have hz : ((xs.map (inc tw)).flatMap bits).length ≤ 255 * xs.length := by
    have := Enc.flat_len g.lenLe (xs.map (inc tw)); rwa [List.length_map] at this
  generalize hzb : ((xs.map (inc tw)).flatMap bits).length = zb at *
  have hw := Nat.lt_log2_self (n := (BitVec.ofNat 64 (zb + 1)).toNat)
  generalize hW : Nat.log2 (BitVec.ofNat 64 (zb + 1)).toNat + 1 = W at hw
  rw [BitVec.toNat_ofNat, Nat.mod_eq_of_lt (by omega)] at hw
  have hpl : (ps bits dens 0 0 (xs.map (inc tw))).length = (xs.length + dens - 1) / dens := by
    rw [ps_len hd hd, List.length_map, Nat.sub_zero]
  obtain ⟨m, m1, m2⟩ := pass2_eq (k := 0) (j := 0) (z := 0) (pos := 0) (sp := ⟨W, List.replicate ((xs.length + dens - 1) / dens + 1) 0⟩)
    (m := (List.range ((zb + 64) / 64)).map junk) g hd hE (by rw [hpl]; simp) (by rw [hzb]; simp; omega)
  refine ⟨⟨m, zb, ⟨W, List.take 0 (List.replicate ((xs.length + dens - 1) / dens + 1) 0) ++ (ps bits dens 0 0 (xs.map (inc tw))).map (· % 2 ^ W) ++
      (List.replicate ((xs.length + dens - 1) / dens + 1) 0).drop (0 + (ps bits dens 0 0 (xs.map (inc tw))).length)⟩, xs.length⟩, ?_, rfl, ?_, ?_⟩
  · unfold construct
    rw [if_neg hne, pass1_ok g.encLen h0, sbind]
    dsimp only
    rw [hzb, Nat.zero_add, hi_eq, sbind, hW, m1, sbind]
    rfl
  · exact m2.at (by rw [hzb]; simp; omega)
  · intro i hi
    have hlt : dens * (i / dens) < xs.length := by have := Nat.div_add_mod i dens; omega
    have hps := ps_get (bits := bits) hd (z := 0) (k := 0) (j := i / dens) (l := xs.map (inc tw)) (by rw [List.length_map]; omega)
    rw [Nat.zero_add, Nat.zero_add] at hps
    have hil := (List.getElem?_eq_some_iff.1 hps).1
    unfold Arr.get
    dsimp only
    rw [List.take_zero, List.nil_append, List.getElem?_append_left (by simpa using hil), List.getElem?_map, hps, Option.map_some]
    congr 1
    apply Nat.mod_eq_of_lt
    have : (((xs.map (inc tw)).take (dens * (i / dens))).flatMap bits).length ≤ zb := by
      rw [← hzb]
      conv => rhs; rw [← List.take_append_drop (dens * (i / dens)) (xs.map (inc tw)), List.flatMap_append, List.length_append]
      omega
    omega

theorem get_eq {c : VC} {bits : Word → List Bool} {E D : Word → Prop} (g : VGood c bits E D) {tw dens : Nat}
    {xs : List Word} {e : Vec} (hD : ∀ x ∈ xs, D (inc tw x)) (hat : At e.z 0 ((xs.map (inc tw)).flatMap bits))
    (hsp : ∀ i, i < xs.length → e.sp.get (i / dens) = some (((xs.map (inc tw)).take (dens * (i / dens))).flatMap bits).length)
    {i : Nat} {x : Word} (hi : xs[i]? = some x) : get c dens e i = some (inc tw x - 1#64) := by
  obtain ⟨hlt, hx⟩ := List.getElem?_eq_some_iff.1 hi
  have hdm := Nat.div_add_mod i dens
  have h1 := Enc.take_take_flat bits (q := dens * (i / dens)) (r := i % dens + 1) hat
  have h2 := g.last h1 (by
    intro w hw
    have := List.mem_of_mem_drop (List.mem_of_mem_take hw)
    rw [List.mem_map] at this
    obtain ⟨y, hy, rfl⟩ := this
    exact hD y hy)
  rw [List.length_take, List.length_drop, List.length_map, Nat.min_eq_left (by omega)] at h2
  unfold get
  dsimp only
  rw [hsp i hlt, sbind, show i - dens * (i / dens) + 1 = i % dens + 1 by omega, h2, sbind]
  congr 2
  rw [List.getLastD_eq_getLast?, List.getLast?_eq_getElem?, List.length_take, List.length_drop, List.length_map, Nat.min_eq_left (by omega),
    Nat.add_sub_cancel, List.getElem?_take, if_pos (by omega), List.getElem?_drop, hdm, List.getElem?_map, hi]
  rfl

end Vlc

theorem vgood_fib : VGood VC.fib fibBits Fib.LowDigit (fun _ => True) where
  pos w := by obtain ⟨L, -, h2, h3, h4⟩ := Fib.encLen_eq w; rw [Fib.length_fibBits h2 h3 h4]; omega
  lenLe w := Nat.le_trans (Fib.length_le w) (by decide)
  encLen := Fib.encLen_bits
  encode1 hg h := Fib.encode1_eq hg h
  last h _ := by
    show (Fib.decode false _ _ _).map _ = _
    rw [Fib.decode_words false h, Fib.emit_false _ _ rfl]; rfl
  sums h _ := by
    show (Fib.decode true _ _ _).map _ = _
    rw [Fib.decode_words true h, Fib.emit_true]; simp

theorem vpsum_fib : VPsum VC.fib fibBits (fun _ => True) 0 (2 ^ 23 - 1) := by
  intro m start ys h _ hl _
  apply Fib.prefixSum_words h
  have := Enc.flat_len vgood_fib.lenLe ys
  omega

end Sdsl
