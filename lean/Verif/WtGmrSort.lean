/-
  The sorting loops of the constructors of `wt_gmr_rs` and `wt_gmr`.
-/
import Verif.WtGmrLemmas

namespace Sdsl.Csa.Gmr

open _root_.Sdsl.Csa

/-! ### wt_gmr_rs -/

theorem rowLoop_spec {tmp : Arr} {i K bs c0 : Nat} {L : List Nat} (hK : ∀ o, o < K → tmp.get (K * i + o) = some ((chunk bs L o).count c0)) :
    ∀ (k o : Nat) (a : Arr), o + k = K → i < a.xs.length → L.length < 2 ^ a.width → a.get i = some ((L.take (o * bs)).count c0) →
      ∃ a', rowLoop tmp i k (K * i + o) a = some a' ∧ a'.xs.length = a.xs.length ∧ a'.width = a.width ∧ a'.get i = some ((L.take (K * bs)).count c0) ∧ ∀ t, t ≠ i → a'.get t = a.get t
  | 0, o, a, h1, _, _, h3 => ⟨a, rfl, rfl, rfl, by rw [h3, show o = K by omega], fun _ _ => rfl⟩
  | k + 1, o, a, h1, h2, hw, h3 => by
    have e : (L.take (o * bs)).count c0 + (chunk bs L o).count c0 = (L.take ((o + 1) * bs)).count c0 := by rw [take_chunk, List.count_append]
    have hc : (L.take ((o + 1) * bs)).count c0 ≤ L.length := Nat.le_trans ((List.take_sublist _ _).count_le _) List.count_le_length
    obtain ⟨a', f1, f2, f3, f4, f5⟩ := aset (a := a) (i := i) (x := (L.take ((o + 1) * bs)).count c0) h2 (by omega)
    obtain ⟨a'', g1, g2, g3, g4, g5⟩ := rowLoop_spec hK k (o + 1) a' (by omega) (by omega) (by rw [f3]; exact hw) f4
    refine ⟨a'', ?_, by rw [g2, f2], by rw [g3, f3], g4, fun t ht => by rw [g5 t ht, f5 t ht]⟩
    rw [rowLoop, h3, sbind, hK o (by omega), sbind, e, f1, sbind, Nat.add_assoc, g1]

theorem rowsLoop_spec {tmp : Arr} {K bs M : Nat} {L : List Nat} (hK : L.length ≤ K * bs) (ht : ∀ c o, c < M → o < K → tmp.get (c * K + o) = some ((chunk bs L o).count c)) :
    ∀ (k i : Nat) (a : Arr), i + k = M → a.xs.length = M → L.length < 2 ^ a.width → (∀ t, t < i → a.get t = some (L.count t)) → (∀ t, i ≤ t → t < M → a.get t = some 0) →
      ∃ a', rowsLoop tmp K k i a = some a' ∧ a'.xs.length = M ∧ a'.width = a.width ∧ ∀ t, t < M → a'.get t = some (L.count t)
  | 0, i, a, h1, h2, _, h4, _ => ⟨a, rfl, h2, rfl, fun t h => h4 t (by omega)⟩
  | k + 1, i, a, h1, h2, h3, h4, h5 => by
    obtain ⟨a', f1, f2, f3, f4, f5⟩ := rowLoop_spec (tmp := tmp) (i := i) (K := K) (bs := bs) (c0 := i) (L := L) (fun o ho => by rw [Nat.mul_comm]; exact ht i o (by omega) ho)
      K 0 a (by omega) (by omega) h3 (by rw [h5 i (Nat.le_refl _) (by omega)]; simp)
    rw [List.take_of_length_le hK] at f4
    obtain ⟨a'', g1, g2, g3, g4⟩ := rowsLoop_spec hK ht k (i + 1) a' (by omega) (by omega) (by rw [f3]; exact h3)
      (fun t h => by
        by_cases c : t = i
        · rw [c]; exact f4
        · rw [f5 t c]; exact h4 t (by omega))
      (fun t h h' => by rw [f5 t (by omega)]; exact h5 t (by omega) h')
    exact ⟨a'', by rw [rowsLoop, show K * i = K * i + 0 from rfl, f1, sbind, g1], g2, by rw [g3, f3], g4⟩

theorem placeLoop_spec {bs M : Nat} {L : List Nat} (hb : 0 < bs) : ∀ (rest l : List Nat) (off j : Nat) (sy pos : Arr), L = l ++ rest → l.length = off * bs + j → j ≤ bs → (∀ c ∈ rest, c < M) →
    sy.xs.length = M → pos.xs.length = L.length → L.length < 2 ^ sy.width → bs ≤ 2 ^ pos.width →
    (∀ c, c < M → sy.get c = some (smaller L c + l.count c)) → (∀ p, p < l.length → pos.get (key L p) = some (p % bs)) →
    ∃ pos', placeLoop bs rest j sy pos = some pos' ∧ pos'.xs.length = L.length ∧ ∀ p, p < L.length → pos'.get (key L p) = some (p % bs)
  | [], l, off, j, sy, pos, hL, _, _, _, _, h6, _, _, _, h => ⟨pos, rfl, h6, by rw [hL, List.append_nil]; rw [hL, List.append_nil] at h; exact h⟩
  | x :: rest, l, off, j, sy, pos, hL, h1, h2, h3, h5, h6, h7, h8, h9, h => by
    rw [placeLoop]
    obtain ⟨o', j', hoj, e1, e2⟩ : ∃ o' j', (if j = bs then 0 else j) = j' ∧ l.length = o' * bs + j' ∧ j' < bs := by
      by_cases c : j = bs
      · exact ⟨off + 1, 0, by rw [if_pos c], by rw [Nat.succ_mul]; omega, hb⟩
      · exact ⟨off, j, by rw [if_neg c], h1, by omega⟩
    rw [hoj]
    have hx := h3 x (by simp)
    have hll : L.length = l.length + (rest.length + 1) := by rw [hL, List.length_append, List.length_cons]
    have hs : sym L l.length = x := by rw [sym_lt (by omega)]; simp [hL]
    have ht : L.take l.length = l := by rw [hL]; simp
    have hk : key L l.length = smaller L x + l.count x := by rw [key, hs, ht]
    have hkl := key_lt (L := L) (p := l.length) (by omega)
    rw [h9 x hx, sbind, ← hk]
    obtain ⟨p', f1, f2, f3, f4, f5⟩ := aset (a := pos) (i := key L l.length) (x := j') (by omega) (by omega)
    rw [f1, sbind]
    obtain ⟨s', g1, g2, g3, g4, g5⟩ := aset (a := sy) (i := x) (x := key L l.length + 1) (by omega) (by omega)
    rw [g1, sbind]
    refine placeLoop_spec hb rest (l ++ [x]) o' (j' + 1) s' p' (by simp [hL]) (by rw [List.length_append, List.length_singleton]; omega) (by omega) (fun c hc => h3 c (by simp [hc]))
      (by omega) (by omega) (by rw [g3]; exact h7) (by rw [f3]; exact h8) ?_ ?_
    · intro c hc
      rw [List.count_append]
      by_cases e : c = x
      · subst e; rw [g4, hk, List.count_singleton_self]; rfl
      · rw [g5 c e, h9 c hc, List.count_singleton, if_neg (by simpa using fun h => e h.symm)]; rfl
    · intro p hp
      rw [List.length_append, List.length_singleton] at hp
      by_cases e : p = l.length
      · subst e
        rw [f4, e1, Nat.add_comm, Nat.add_mul_mod_self_right, Nat.mod_eq_of_lt e2]
      · rw [f5 _ (fun hh => e (key_inj (L := L) (by omega) (by omega) hh))]
        exact h p (by omega)

/-! ### wt_gmr -/

theorem symLoop_spec {text C : List Nat} {lo M : Nat} (hC : ∀ k, k < C.length → text[lo + k]? = some (sym C k)) (hM : ∀ c ∈ C, c < M) :
    ∀ (m k : Nat) (a : Arr), m + k = C.length → C.length < 2 ^ a.width → (∀ c, c < M → a.get c = some ((C.take k).count c)) →
      ∃ a', symLoop text m (lo + k) a = some a' ∧ a'.xs.length = a.xs.length ∧ a'.width = a.width ∧ ∀ c, c < M → a'.get c = some (C.count c)
  | 0, k, a, h1, _, h => ⟨a, rfl, rfl, rfl, by rw [List.take_of_length_le (by omega)] at h; exact h⟩
  | m + 1, k, a, h1, h2, h => by
    have hk : k < C.length := by omega
    have hx := hM _ (sym_mem hk)
    have hs := count_take_succ hk
    have hle : (C.take (k + 1)).count (sym C k) ≤ C.length := Nat.le_trans ((List.take_sublist _ _).count_le _) List.count_le_length
    have hs0 := hs (sym C k)
    rw [if_pos rfl] at hs0
    obtain ⟨a', f1, f2, f3, f4, f5⟩ := incr_spec (h _ hx) (by omega)
    obtain ⟨a'', g1, g2, g3, g4⟩ := symLoop_spec hC hM m (k + 1) a' (by omega) (by rw [f3]; exact h2) (by
      intro c hc
      rw [hs c]
      by_cases e : sym C k = c
      · subst e; rw [f4, if_pos rfl]
      · rw [f5 c (fun h => e h.symm), h c hc, if_neg e]; rfl)
    exact ⟨a'', by rw [symLoop, hC k hk, sbind, f1, sbind, Nat.add_assoc, g1], by rw [g2, f2], by rw [g3, f3], g4⟩

theorem permLoop_spec {text C : List Nat} {lo M bs : Nat} (hC : ∀ k, k < C.length → text[lo + k]? = some (sym C k)) (hM : ∀ c ∈ C, c < M) (hCb : C.length ≤ bs) :
    ∀ (m k : Nat) (sy perm : Arr), m + k = C.length → sy.xs.length = M → lo + C.length ≤ perm.xs.length → perm.xs.length < 2 ^ 64 → C.length < 2 ^ sy.width → bs ≤ 2 ^ perm.width →
      (∀ c, c < M → sy.get c = some (smaller C c + (C.take k).count c)) → (∀ p, p < k → perm.get (lo + key C p) = some p) →
      ∃ perm', permLoop text lo m (lo + k) k sy perm = some perm' ∧ perm'.xs.length = perm.xs.length ∧ perm'.width = perm.width ∧ (∀ p, p < C.length → perm'.get (lo + key C p) = some p) ∧
        ∀ t, t < lo → perm'.get t = perm.get t
  | 0, k, sy, perm, h1, _, _, _, _, _, _, h => ⟨perm, rfl, rfl, rfl, fun p hp => h p (by omega), fun _ _ => rfl⟩
  | m + 1, k, sy, perm, h1, h2, h3, h3', h4, h5, h6, h => by
    have hk : k < C.length := by omega
    have hx := hM _ (sym_mem hk)
    have hkl := key_lt hk
    have hke : smaller C (sym C k) + (C.take k).count (sym C k) = key C k := rfl
    obtain ⟨p', f1, f2, f3, f4, f5⟩ := aset (a := perm) (i := lo + key C k) (x := k) (by omega) (by omega)
    obtain ⟨s', g1, g2, g3, g4, g5⟩ := aset (a := sy) (i := sym C k) (x := key C k + 1) (by omega) (by omega)
    obtain ⟨q, e1, e2, e3, e4, e5⟩ := permLoop_spec hC hM hCb m (k + 1) s' p' (by omega) (by omega) (by omega) (by omega) (by rw [g3]; exact h4) (by rw [f3]; exact h5) (by
      intro c hc
      rw [count_take_succ hk]
      by_cases e : sym C k = c
      · subst e; rw [g4, if_pos rfl, ← hke]; rfl
      · rw [g5 c (fun h => e h.symm), h6 c hc, if_neg e]; rfl) (by
      intro p hp
      by_cases e : p = k
      · subst e; exact f4
      · rw [f5 _ (fun hh => e (key_inj (L := C) (by omega) hk (by omega)))]
        exact h p (by omega))
    refine ⟨q, ?_, by rw [e2, f2], by rw [e3, f3], e4, fun t ht => by rw [e5 t ht, f5 t (by omega)]⟩
    rw [permLoop, hC k hk, sbind, h6 _ hx, sbind, hke, add64_eq (by omega), f1, sbind, g1, sbind, Nat.add_assoc, e1]

theorem chunkBits_spec {sy : Arr} {g : Nat → Nat} {base n M : Nat} (hs : ∀ c, c < M → sy.get c = some (g (base + c))) :
    ∀ (k j : Nat) (b : List Bool), j + k = M → base + M + 1 + pre g (base + M) ≤ n → Filled g (base + j) n b →
      ∃ b', chunkBits sy k j (base + j + pre g (base + j)) b = some (base + M + pre g (base + M), b') ∧ Filled g (base + M) n b'
  | 0, j, b, h1, _, h => by
    obtain rfl : j = M := by omega
    exact ⟨b, rfl, h⟩
  | k + 1, j, b, h1, h2, h => by
    have := pre_mono g (show base + j + 1 ≤ base + M by omega)
    obtain ⟨b1, e1, e2⟩ := h.step (by omega)
    obtain ⟨b2, f1, f2⟩ := chunkBits_spec hs k (j + 1) b1 (by omega) h2 e2
    refine ⟨b2, ?_, f2⟩
    rw [chunkBits, hs j (by omega), sbind, onesX_eq, show base + j + pre g (base + j) + 1 = base + j + 1 + pre g (base + j) by omega, e1, Option.map_some, sbind]
    dsimp only
    rw [← f1, ← Nat.add_assoc]
    congr 1
    omega

end Sdsl.Csa.Gmr
