import Verif.Lemmas.NumericUtils

namespace Model
open Spec
variable {K : Type} [Field K] [LinearOrder K]

/-- Dot product of two lists. -/
def ldot (a x : List K) : K := (List.zipWith (· * ·) a x).sum

theorem firstNonZero_some {v : List K} {i : Nat} (h : firstNonZero v = some i) :
    ∃ hi : i < v.length, v[i] ≠ 0 ∧ ∀ j (hj : j < i), v[j] = 0 := by
  induction v generalizing i with
  | nil => simp [firstNonZero] at h
  | cons a v ih =>
    unfold firstNonZero at h
    split_ifs at h with ha
    · simp only [Option.some.injEq] at h
      subst h
      exact ⟨by simp, ha, fun j hj => absurd hj (by omega)⟩
    · simp only [Option.map_eq_some_iff] at h
      obtain ⟨k, hk, rfl⟩ := h
      obtain ⟨h1, h2, h3⟩ := ih hk
      refine ⟨by simpa using h1, by simpa using h2, ?_⟩
      intro j hj
      cases j with
      | zero => simpa using ha
      | succ j => simpa using h3 j (by omega)

theorem ldot_set (l x : List K) (i : Nat) (a : K) (hi : i < l.length) (hx : l.length = x.length) :
    ldot (l.set i a) x = ldot l x + (a - l.getD i 0) * x.getD i 0 := by
  induction l generalizing x i with
  | nil => simp at hi
  | cons b l ih =>
    cases x with
    | nil => simp at hx
    | cons y x =>
      cases i with
      | zero => simp [ldot]; ring
      | succ i =>
        have := ih x i (by simpa using hi) (by simpa using hx)
        simp only [ldot] at this
        simp only [List.set_cons_succ, ldot, List.zipWith_cons_cons, List.sum_cons, this, List.getD_cons_succ]
        ring

theorem ldot_addmul (r v x : List K) (c k : K) (h1 : r.length = x.length) (h2 : v.length = x.length) :
    ldot (List.zipWith (fun a b => a + (c * b) * k) r v) x = ldot r x + c * k * ldot v x := by
  induction x generalizing r v with
  | nil => simp_all [ldot]
  | cons y x ih =>
    cases r with
    | nil => simp at h1
    | cons a r =>
      cases v with
      | nil => simp at h2
      | cons b v =>
        have := ih r v (by simpa using h1) (by simpa using h2)
        simp only [ldot] at this ⊢
        simp only [List.zipWith_cons_cons, List.sum_cons, this]
        ring

theorem reduceRow_length {v row : List K} {i : Nat} (h : v.length = row.length) :
    (reduceRow v i row).length = row.length := by
  simp [reduceRow, h]

theorem reduceRow_col {v row : List K} {i : Nat} (hi : i < row.length) (h : v.length = row.length) :
    (reduceRow v i row).getD i 0 = 0 := by
  unfold reduceRow
  simp [List.getD_eq_getElem?_getD, hi, h]

theorem reduceRow_dot {v row x : List K} {i : Nat} (hi : firstNonZero v = some i) (h1 : v.length = row.length)
    (h2 : row.length = x.length) (hv : ldot v x = 0) : ldot (reduceRow v i row) x = ldot row x := by
  obtain ⟨hlt, hne, _⟩ := firstNonZero_some hi
  unfold reduceRow
  rw [ldot_set _ _ _ _ (by simp [← h1, hlt]) (by simp [← h2, h1]), ldot_addmul _ _ _ _ _ h2 (h1.trans h2), hv]
  have e : (List.zipWith (fun r c => r + -1 / v.getD i 0 * c * row.getD i 0) row v).getD i 0 = 0 := by
    have hr : i < row.length := h1 ▸ hlt
    simp only [List.getD_eq_getElem?_getD, List.getElem?_zipWith, List.getElem?_eq_getElem hlt,
      List.getElem?_eq_getElem hr, Option.getD_some]
    field_simp
    ring
  rw [e]; ring

theorem reduceComplementary_rows {basis hull : List (List K)} {n : Nat} (hb : ∀ v ∈ basis, v.length = n)
    (hh : ∀ r ∈ hull, r.length = n) {x : List K} (hx : x.length = n) (hx0 : ∀ v ∈ basis, ldot v x = 0) :
    (reduceComplementary hull basis).map (fun r => ldot r x) = hull.map (fun r => ldot r x) ∧
    ∀ r ∈ reduceComplementary hull basis, r.length = n := by
  unfold reduceComplementary
  induction basis generalizing hull with
  | nil => exact ⟨rfl, hh⟩
  | cons v basis ih =>
    rw [List.foldl_cons]
    have hbv := hb v (by simp)
    cases hf : firstNonZero v with
    | none => exact ih (fun v hv => hb v (by simp [hv])) hh (fun v hv => hx0 v (by simp [hv]))
    | some i =>
      dsimp only
      have hlen : ∀ r ∈ hull.map (reduceRow v i), r.length = n := by
        intro r hr
        obtain ⟨q, hq, rfl⟩ := List.mem_map.mp hr
        rw [reduceRow_length (by rw [hbv, hh q hq]), hh q hq]
      obtain ⟨h1, h2⟩ := ih (fun v hv => hb v (by simp [hv])) hlen (fun v hv => hx0 v (by simp [hv]))
      refine ⟨?_, h2⟩
      rw [h1, List.map_map]
      apply List.map_congr_left
      intro q hq
      exact reduceRow_dot hf (by rw [hbv, hh q hq]) (by rw [hh q hq, hx]) (hx0 v (by simp))

theorem divideSpan_some {eqs : List (List K)} (h : ∀ e ∈ eqs, ∃ c ∈ e, c ≠ 0) :
    ∃ out, divideSpan eqs = some out ∧ List.Forall₂ (fun e o => ∃ c : K, c ≠ 0 ∧ o = e.map (· / c)) eqs out := by
  unfold divideSpan
  induction eqs with
  | nil => exact ⟨[], rfl, .nil⟩
  | cons e eqs ih =>
    obtain ⟨out, h1, h2⟩ := ih (fun e he => h e (by simp [he]))
    obtain ⟨c, hc, hne⟩ := h e (by simp)
    have : (e.find? (· ≠ 0)).isSome := by
      rw [List.find?_isSome]; exact ⟨c, hc, by simpa using hne⟩
    obtain ⟨c', hc'⟩ := Option.isSome_iff_exists.mp this
    have hne' := List.find?_some hc'
    refine ⟨e.map (· / c') :: out, ?_, .cons ⟨c', by simpa using hne', rfl⟩ h2⟩
    rw [List.mapM_cons, h1, hc']; rfl

theorem ldot_div (e x : List K) (c : K) : ldot (e.map (· / c)) x = ldot e x / c := by
  induction e generalizing x with
  | nil => simp [ldot]
  | cons a e ih =>
    cases x with
    | nil => simp [ldot]
    | cons y x =>
      have := ih x
      simp only [ldot] at this ⊢
      simp only [List.map_cons, List.zipWith_cons_cons, List.sum_cons, this]
      ring

end Model
