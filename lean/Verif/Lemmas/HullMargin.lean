import Verif.Lemmas.HullLearner
import Mathlib.Tactic.FieldSimp

namespace Model
open Spec

section
variable {K : Type} [Field K] [LinearOrder K] [IsStrictOrderedRing K] [FloorRing K]

theorem prettify_printed_err (d : Nat) (c : K) :
    |printed d (rnd d (if epsOf K d < |c| then c else 0)) - c| ≤ 3 / 2 * epsOf K d := by
  have hp := epsOf_pos (K := K) d
  split_ifs with h
  · have h1 := rnd_err d c
    have e : rnd d (rnd d c) = rnd d c := rnd_of_onGrid (rnd_onGrid d c)
    unfold printed
    rw [e]
    split_ifs with hc
    · rw [zero_sub, abs_neg]
      have h2 := abs_sub_abs_le_abs_sub c (rnd d c)
      rw [abs_sub_comm] at h2
      linarith
    · linarith
  · push Not at h
    rw [rnd_zero]
    have : printed d (0 : K) = 0 := printed_of_printable (Or.inl rfl)
    rw [this, zero_sub, abs_neg]
    linarith

theorem prettify_err (d : Nat) (c : K) : |rnd d (if epsOf K d < |c| then c else 0) - c| ≤ epsOf K d := by
  have hp := epsOf_pos (K := K) d
  split_ifs with h
  · have := rnd_err d c; linarith
  · push Not at h
    rw [rnd_zero, zero_sub, abs_neg]; exact h

theorem ofFn_prettify {d k : Nat} (a : Fin k → K) :
    prettifyCoefs d (List.ofFn a) = List.ofFn fun i => rnd d (if epsOf K d < |a i| then a i else 0) := by
  unfold prettifyCoefs
  rw [List.map_ofFn, List.map_ofFn]
  rfl

theorem sum_printed_ofFn {n d : Nat} (a : Fin n → K) (g : Fin n → NExp K) (x : String → K) :
    (List.zipWith (fun c f => printed d c * featVal x f) (List.ofFn a) (List.ofFn g)).sum = ∑ i, printed d (a i) * featVal x (g i) := by
  induction n with
  | zero => simp
  | succ n ih =>
    rw [List.ofFn_succ, List.ofFn_succ, List.zipWith_cons_cons, List.sum_cons, ih, Fin.sum_univ_succ]

/-- The left side of a printed facet is close to the facet. -/
theorem facet_print_err {d k : Nat} (a : Fin k → K) (headers : Fin k → NExp K) (x : String → K) :
    |(linExp (mulTerms d (prettifyCoefs d (List.ofFn a)) (List.ofFn headers))).eval x - (a ⬝ᵥ fun i => featVal x (headers i))|
      ≤ 3 / 2 * epsOf K d * ∑ i, |featVal x (headers i)| := by
  rw [eval_mulTerms, ofFn_prettify, sum_printed_ofFn, dotProduct, ← Finset.sum_sub_distrib, Finset.mul_sum]
  refine (Finset.abs_sum_le_sum_abs _ _).trans (Finset.sum_le_sum fun i _ => ?_)
  rw [← sub_mul, abs_mul]
  exact mul_le_mul_of_nonneg_right (prettify_printed_err d (a i)) (abs_nonneg _)

/-- Printed facets, one by one. -/
theorem facetConds_iff {d k : Nat} {facets : List ((Fin k → K) × K)} {headers : Fin k → NExp K} (x : String → K) :
    (∀ q ∈ pddlScheme d .le (facets.map fun f => prettifyCoefs d (List.ofFn f.1)) (prettifyCoefs d (facets.map Prod.snd))
        (List.ofFn headers), q.holds x) ↔
      ∀ f ∈ facets, (linExp (mulTerms d (prettifyCoefs d (List.ofFn f.1)) (List.ofFn headers))).eval x
        ≤ rnd d (if epsOf K d < |f.2| then f.2 else 0) := by
  rw [pddlScheme_holds x (by simp [prettifyCoefs])]
  constructor
  · intro h f hf
    obtain ⟨i, hi, rfl⟩ := List.mem_iff_getElem.mp hf
    have := h i (by simpa using hi)
    simpa [NCond.holds, prettifyCoefs, NExp.eval] using this
  · intro h i hi
    have hi' : i < facets.length := by simpa using hi
    have := h _ (List.getElem_mem hi')
    simpa [NCond.holds, prettifyCoefs, NExp.eval] using this
end

section
variable {K : Type} [Field K] [LinearOrder K] [IsStrictOrderedRing K] [FloorRing K]
variable {C : Type} [DecidableEq C]

/-- A convex combination of points of the hull is in the hull. -/
theorem inHull_trans {cols : List C} {rows pts : List (C → K)} (hp : ∀ p ∈ pts, InHull cols rows p) {v : C → K}
    (hv : InHull cols pts v) : InHull cols rows v := by
  obtain ⟨w, w1, w2, w3, w4⟩ := hv
  suffices h : ∀ (pts : List (C → K)) (w : List K), w.length = pts.length → (∀ k ∈ w, 0 ≤ k) → (∀ p ∈ pts, InHull cols rows p) →
      ∃ u : List K, u.length = rows.length ∧ (∀ k ∈ u, 0 ≤ k) ∧ u.sum = w.sum ∧
        ∀ c ∈ cols, (List.zipWith (fun k (r : C → K) => k * r c) w pts).sum = (List.zipWith (fun k (r : C → K) => k * r c) u rows).sum by
    obtain ⟨u, u1, u2, u3, u4⟩ := h pts w w1 w2 hp
    exact ⟨u, u1, u2, by rw [u3, w3], fun c hc => by rw [w4 c hc, u4 c hc]⟩
  clear hp w1 w2 w3 w4 w pts
  intro pts
  induction pts with
  | nil =>
    intro w hl _ _hh
    clear _hh
    have : w = [] := List.eq_nil_of_length_eq_zero hl
    subst this
    refine ⟨rows.map fun _ => 0, by simp, ?_, by simp, ?_⟩
    · intro k hk; obtain ⟨_, _, rfl⟩ := List.mem_map.mp hk; exact le_refl _
    · intro c _
      simp only [List.zipWith_nil_left, List.sum_nil]
      symm
      induction rows with
      | nil => rfl
      | cons a l ih => simp only [List.map_cons, List.zipWith_cons_cons, List.sum_cons, zero_mul, zero_add]; exact ih
  | cons p pts ih =>
    intro w hl hw hp
    cases w with
    | nil => simp at hl
    | cons k w =>
      obtain ⟨u, u1, u2, u3, u4⟩ := ih w (by simpa using hl) (fun k hk => hw k (by simp [hk])) (fun p hp' => hp p (by simp [hp']))
      obtain ⟨t, t1, t2, t3, t4⟩ := hp p (by simp)
      have hk := hw k (by simp)
      refine ⟨List.zipWith (fun x y => k * x + y) t u, by simp [t1, u1], ?_, ?_, ?_⟩
      · intro z hz
        obtain ⟨i, hi, rfl⟩ := List.mem_iff_getElem.mp hz
        simp only [List.getElem_zipWith]
        have := t2 _ (List.getElem_mem (l := t) (by simp at hi; omega : i < t.length))
        have := u2 _ (List.getElem_mem (l := u) (by simp at hi; omega : i < u.length))
        positivity
      · have : ∀ (t u : List K), t.length = u.length → (List.zipWith (fun x y => k * x + y) t u).sum = k * t.sum + u.sum := by
          intro t
          induction t with
          | nil => intro u hu; cases u <;> simp_all
          | cons x t ih =>
            intro u hu
            cases u with
            | nil => simp at hu
            | cons y u => simp only [List.zipWith_cons_cons, List.sum_cons, ih u (by simpa using hu)]; ring
        rw [this t u (by omega), t3, u3]; simp
      · intro c hc
        simp only [List.zipWith_cons_cons, List.sum_cons]
        rw [t4 c hc, u4 c hc]
        have : ∀ (t u : List K) (rows : List (C → K)), t.length = rows.length → u.length = rows.length →
            k * (List.zipWith (fun k (r : C → K) => k * r c) t rows).sum + (List.zipWith (fun k (r : C → K) => k * r c) u rows).sum
              = (List.zipWith (fun k (r : C → K) => k * r c) (List.zipWith (fun x y => k * x + y) t u) rows).sum := by
          intro t u rows
          induction rows generalizing t u with
          | nil => simp
          | cons r rows ih =>
            intro h1 h2
            cases t with
            | nil => simp at h1
            | cons x t =>
              cases u with
              | nil => simp at h2
              | cons y u =>
                simp only [List.zipWith_cons_cons, List.sum_cons]
                rw [← ih t u (by simpa using h1) (by simpa using h2)]
                ring
        exact this t u rows t1 u1

/-- The mean of points of the hull is in the hull. -/
theorem inHull_mean {k : Nat} {pts vs : List (Fin k → K)} (hne : vs ≠ []) (hv : ∀ v ∈ vs, v ∈ pts) :
    InHull (List.finRange k) pts ((vs.length : K)⁻¹ • vs.sum) := by
  have hpos : (0 : K) < vs.length := by
    have := List.length_pos_iff.mpr hne
    exact_mod_cast this
  refine inHull_trans (rows := pts) (pts := vs) (fun p hp => inHull_row (hv p hp)) ?_
  refine ⟨vs.map fun _ => (vs.length : K)⁻¹, by simp, ?_, ?_, ?_⟩
  · intro x hx
    obtain ⟨_, _, rfl⟩ := List.mem_map.mp hx
    positivity
  · simp [mul_inv_cancel₀ hpos.ne']
  · intro c _
    have : ∀ (a : K) (vs : List (Fin k → K)), (a • vs.sum) c = (List.zipWith (fun b (r : Fin k → K) => b * r c) (vs.map fun _ => a) vs).sum := by
      intro a vs
      induction vs with
      | nil => simp
      | cons v vs ih =>
        simp only [List.map_cons, List.zipWith_cons_cons, List.sum_cons, smul_add, Pi.add_apply, ih]
        rfl
    exact this _ vs

/-- The region of the hull with a margin. -/
theorem approxHull_spec {L : NumLib K C} (hq : QhullContract L) {k : Nat} {margin : K} (hm : 0 ≤ margin) {plain : Bool}
    {pts : List (Fin k → K)} {h : HullResult K k} (ho : approxHull (L.qhull k) margin plain pts = some h) :
    (∀ y, InHull (List.finRange k) pts y → ∀ f ∈ h.facets, f.1 ⬝ᵥ y ≤ f.2) ∧
    ∃ c, InHull (List.finRange k) pts c ∧ ∀ y, (∀ f ∈ h.facets, f.1 ⬝ᵥ y ≤ f.2) →
      ∃ z, InHull (List.finRange k) pts z ∧ y = c + (1 + margin) • (z - c) := by
  have h1m : (0 : K) < 1 + margin := by linarith
  unfold approxHull at ho
  cases h0 : L.qhull k pts with
  | none => rw [h0] at ho; simp at ho
  | some hull =>
    rw [h0] at ho
    simp only [Option.bind_eq_bind, Option.bind_some] at ho
    obtain ⟨hvne, hvlt⟩ := hq.vertices h0
    have hvs : ∀ v ∈ hull.vertices.filterMap (fun i => pts[i]?), v ∈ pts := by
      intro v hv
      obtain ⟨i, _, hi⟩ := List.mem_filterMap.mp hv
      exact List.mem_of_getElem? hi
    have hvs0 : hull.vertices.filterMap (fun i => pts[i]?) ≠ [] := by
      obtain ⟨i, hi⟩ := List.exists_mem_of_ne_nil _ hvne
      have : pts[i]? = some (pts[i]'(hvlt i hi)) := List.getElem?_eq_getElem _
      intro e
      rw [List.filterMap_eq_nil_iff] at e
      rw [e i hi] at this
      simp at this
    have hc := inHull_mean hvs0 hvs
    revert ho hc
    generalize (((hull.vertices.filterMap (fun i => pts[i]?)).length : K))⁻¹ • (hull.vertices.filterMap (fun i => pts[i]?)).sum = c
    intro ho hc
    -- every observed point is the image of a point of the hull
    have hback : ∀ p, InHull (List.finRange k) pts p → ∃ z, InHull (List.finRange k) pts z ∧ p = c + (1 + margin) • (z - c) := by
      intro p hp
      have hz := inHull_mix hc hp (t := (1 + margin)⁻¹) (by positivity) (by
        rw [inv_le_one₀ h1m]; linarith)
      refine ⟨_, hz, ?_⟩
      funext i
      simp only [Pi.add_apply, Pi.smul_apply, Pi.sub_apply, smul_eq_mul]
      field_simp
      ring
    cases plain with
    | true =>
      simp only [if_true, Option.pure_def, Option.some.injEq] at ho
      subst ho
      refine ⟨fun y hy => (hq.facets h0 y).mpr hy, c, hc, fun y hy => hback y ((hq.facets h0 y).mp hy)⟩
    | false =>
      simp only [Bool.false_eq_true, if_false] at ho
      refine ⟨fun y hy => (hq.facets ho y).mpr ?_, c, hc, fun y hy => ?_⟩
      · exact inHull_trans (fun p hp => inHull_row (List.mem_append_left _ hp)) hy
      · obtain ⟨w, w1, w2, w3, w4⟩ := (hq.facets ho y).mp hy
        -- the image of the hull is closed under convex combinations: pull everything back
        have hall : ∀ p ∈ pts ++ hull.simplices.flatMap (fun s =>
            (s.filterMap (fun i => pts[i]?)).map fun p => c + (1 + margin) • (p - c)),
            ∃ z, InHull (List.finRange k) pts z ∧ p = c + (1 + margin) • (z - c) := by
          intro p hp
          rcases List.mem_append.mp hp with hp | hp
          · exact hback p (inHull_row hp)
          · obtain ⟨s, _, hs⟩ := List.mem_flatMap.mp hp
            obtain ⟨q, hq', rfl⟩ := List.mem_map.mp hs
            obtain ⟨i, _, hi⟩ := List.mem_filterMap.mp hq'
            exact ⟨q, inHull_row (List.mem_of_getElem? hi), rfl⟩
        refine ⟨fun i => c i + (1 + margin)⁻¹ * (y i - c i), ?_, ?_⟩
        · have hpull : InHull (List.finRange k) ((pts ++ hull.simplices.flatMap (fun s =>
              (s.filterMap (fun i => pts[i]?)).map fun p => c + (1 + margin) • (p - c))).map
                fun p => fun i => c i + (1 + margin)⁻¹ * (p i - c i)) (fun i => c i + (1 + margin)⁻¹ * (y i - c i)) := by
            refine ⟨w, by simpa using w1, w2, w3, ?_⟩
            intro i hi
            have h5 : ∀ (w : List K) (l : List (Fin k → K)), w.length = l.length →
                (List.zipWith (fun b (r : Fin k → K) => b * r i) w (l.map fun p => fun i => c i + (1 + margin)⁻¹ * (p i - c i))).sum
                  = w.sum * (c i - (1 + margin)⁻¹ * c i) + (1 + margin)⁻¹ * (List.zipWith (fun b (r : Fin k → K) => b * r i) w l).sum := by
              intro w l
              induction l generalizing w with
              | nil => intro hl; have := List.eq_nil_of_length_eq_zero hl; subst this; simp
              | cons p l ih =>
                intro hl
                cases w with
                | nil => simp at hl
                | cons a w =>
                  simp only [List.map_cons, List.zipWith_cons_cons, List.sum_cons, ih w (by simpa using hl)]
                  ring
            rw [h5 w _ w1, w3, ← w4 i hi]
            ring
          refine inHull_trans ?_ hpull
          intro p hp
          obtain ⟨q, hq', rfl⟩ := List.mem_map.mp hp
          obtain ⟨z, hz, rfl⟩ := hall q hq'
          have hzz : (fun i => c i + (1 + margin)⁻¹ * ((c + (1 + margin) • (z - c)) i - c i)) = z := ?_
          · rw [hzz]; exact hz
          funext i
          simp only [Pi.add_apply, Pi.smul_apply, Pi.sub_apply, smul_eq_mul]
          field_simp
          ring
        · funext i
          simp only [Pi.add_apply, Pi.smul_apply, Pi.sub_apply, smul_eq_mul]
          field_simp
          ring
end

end Model
