import Verif.Lemmas.Monomials
import Verif.Lemmas.Reduce
import Mathlib.Data.Rat.Floor

/-! C40, C41, C42, C43: printing of linear expressions, circular assignments, monomials, and the
elimination of variables. -/
namespace Props
open Model Spec

section
variable {K : Type} [Field K] [LinearOrder K] [IsStrictOrderedRing K] [FloorRing K]

/-- **C40.** The nested addition built from a list of terms has the value of the sum of the terms. -/
theorem C40_nested_sum (x : String → K) (ts : List (NExp K)) :
    (linExp ts).eval x = (ts.map (NExp.eval x)).sum := eval_linExp x ts

theorem sum_zipWith_featVal {x : String → K} {cs : List K} {fs : List (NExp K)}
    (hd : NExp.var "(dummy)" ∉ fs) :
    (List.zipWith (fun c f => c * featVal x f) cs fs).sum = linearValue x cs fs := by
  unfold linearValue
  congr 1
  induction cs generalizing fs with
  | nil => rfl
  | cons c cs ih =>
    cases fs with
    | nil => rfl
    | cons f fs =>
      simp only [List.mem_cons, not_or] at hd
      simp only [List.zipWith_cons_cons, ih hd.2]
      rw [featVal, if_neg (show ¬ f = dummy from fun e => hd.1 e.symm)]

theorem sum_zipWith_featVal_dummy {x : String → K} {cs : List K} {fs : List (NExp K)} {b : K}
    (hl : cs.length = fs.length) (hd : NExp.var "(dummy)" ∉ fs) :
    (List.zipWith (fun c f => c * featVal x f) (cs ++ [b]) (fs ++ [.var "(dummy)"])).sum =
      linearValue x cs fs + b := by
  rw [List.zipWith_append hl, List.sum_append, sum_zipWith_featVal hd]
  simp [featVal, dummy]

/-- **C40, coefficients.** If the coefficients survive printing with `d` digits, the printed
expression has in every state exactly the value of the linear combination. -/
theorem C40_linear_expression_exact {d : Nat} {cs : List K} {fs : List (NExp K)}
    (hc : ∀ c ∈ cs, Printable d c) (hd : NExp.var "(dummy)" ∉ fs) (x : String → K) :
    (linExp (mulTerms d cs fs)).eval x = linearValue x cs fs := by
  rw [eval_mulTerms_exact hc, sum_zipWith_featVal hd]

/-- **C40, with a constant term.** -/
theorem C40_affine_expression_exact {d : Nat} {cs : List K} {b : K} {fs : List (NExp K)}
    (hl : cs.length = fs.length) (hc : ∀ c ∈ cs, Printable d c) (hb : Printable d b)
    (hd : NExp.var "(dummy)" ∉ fs) (x : String → K) :
    (linExp (mulTerms d (cs ++ [b]) (fs ++ [.var "(dummy)"]))).eval x = linearValue x cs fs + b := by
  rw [eval_mulTerms_exact, sum_zipWith_featVal_dummy hl hd]
  intro c hcm
  rcases List.mem_append.mp hcm with h | h
  · exact hc c h
  · rw [List.mem_singleton.mp h]; exact hb

/-- **C40 (single numbers).** `prettify_floating_point_number` changes a number by less than the printed precision, only towards zero and
only to an integer; in particular it keeps a number just below a positive integer. -/
theorem C40_prettify (d : Nat) (x : K) :
    |prettify d x - x| < epsOf K d ∧ |prettify d x| ≤ |x| ∧ 0 ≤ prettify d x * x ∧ (prettify d x ≠ x → ∃ n : Int, prettify d x = n) ∧
    ∀ n : Int, |x - n| < epsOf K d → |(n : K)| ≤ |x| → prettify d x = n := by
  have hp := epsOf_pos (K := K) d
  have ht : |trunc x| ≤ |x| ∧ 0 ≤ trunc x * x ∧ (∃ n : Int, trunc x = n) ∧ ∀ n : Int, |x - n| < 1 → |(n : K)| ≤ |x| → trunc x = n := by
    unfold trunc
    split_ifs with h0
    · have hf : (0 : K) ≤ (⌊x⌋ : K) := by exact_mod_cast Int.floor_nonneg.mpr h0
      refine ⟨by rw [abs_of_nonneg hf, abs_of_nonneg h0]; exact Int.floor_le x, mul_nonneg hf h0, ⟨_, rfl⟩, fun n h1 h2 => ?_⟩
      rw [abs_of_nonneg h0] at h2
      rw [Int.cast_inj, Int.floor_eq_iff]
      exact ⟨(le_abs_self _).trans h2, by linarith [(abs_lt.mp h1).2]⟩
    · push Not at h0
      have hf : (⌈x⌉ : K) ≤ 0 := by
        have : ⌈x⌉ ≤ 0 := Int.ceil_le.mpr (by simpa using h0.le)
        exact_mod_cast this
      refine ⟨by rw [abs_of_nonpos hf, abs_of_neg h0]; linarith [Int.le_ceil x], mul_nonneg_of_nonpos_of_nonpos hf h0.le, ⟨_, rfl⟩, fun n h1 h2 => ?_⟩
      rw [abs_of_neg h0] at h2
      rw [Int.cast_inj, Int.ceil_eq_iff]
      exact ⟨by linarith [(abs_lt.mp h1).1], by linarith [neg_abs_le (n : K)]⟩
  have he : epsOf K d ≤ 1 := by
    unfold epsOf
    rw [div_le_one (pow10_pos d)]
    exact one_le_pow₀ (by norm_num)
  unfold prettify
  split_ifs with hc
  · exact ⟨by rw [abs_sub_comm]; exact hc, ht.1, ht.2.1, fun _ => ht.2.2.1, fun n h1 h2 => ht.2.2.2 n (h1.trans_le he) h2⟩
  · refine ⟨by simpa using hp, le_rfl, mul_self_nonneg x, fun h => absurd rfl h, fun n h1 h2 => ?_⟩
    have := ht.2.2.2 n (h1.trans_le he) h2
    rw [this] at hc
    exact absurd h1 hc

/-- With four digits, 2.00001 becomes 2, 1.99999 stays as it is, -3.00004 becomes -3. -/
example : prettify 4 (200001 / 100000 : ℚ) = 2 ∧ prettify 4 (199999 / 100000 : ℚ) = 199999 / 100000 ∧ prettify 4 (-300004 / 100000 : ℚ) = -3 := by
  decide +kernel
/-- **C40, arbitrary coefficients.** In general the value is off by at most one and a half units of
the last printed digit per unit of feature value. -/
theorem C40_linear_expression_error {d : Nat} {cs : List K} {fs : List (NExp K)}
    (hl : cs.length = fs.length) (hd : NExp.var "(dummy)" ∉ fs) (x : String → K) :
    |(linExp (mulTerms d cs fs)).eval x - linearValue x cs fs|
      ≤ 3 / 2 * (1 / 10 ^ d) * (fs.map fun f => |f.eval x|).sum := by
  have h := eval_mulTerms_err d x cs fs hl
  rw [sum_zipWith_featVal hd] at h
  have e : (fs.map fun f => |featVal x f|) = fs.map fun f => |f.eval x| := by
    apply List.map_congr_left
    intro f hf
    rw [featVal, if_neg (show ¬ f = dummy from fun e => hd (show dummy ∈ fs from e ▸ hf))]
  rw [e] at h
  exact h

/-- **C40.** The printed expression is complete as soon as one coefficient is printed. -/
theorem C40_expression_wellFormed {d : Nat} {cs : List K} {fs : List (NExp K)} (hl : cs.length ≤ fs.length)
    (hf : ∀ f ∈ fs, f.wellFormed = true) (hc : ∃ c ∈ cs, Printable d c ∧ c ≠ 0) :
    (linExp (mulTerms d cs fs)).wellFormed = true := by
  obtain ⟨c, hm, hp, hne⟩ := hc
  refine wf_linExp (mulTerms_ne_nil hl ⟨c, hm, ?_⟩) (mulTerms_wf hf)
  rcases hp with h | ⟨h1, h2⟩
  · exact absurd h hne
  · rw [rnd_of_onGrid h1]; exact h2

/-- **C41.** The increase/decrease effect made from the coefficients of an assignment leaves the
fluent, in every state, with exactly the assigned value (the linear combination plus the constant),
whichever of the two forms the sampled values select. -/
theorem C41_non_circular_exact {d : Nat} {f : String} {fs : List (NExp K)} {cs : List K} {b : K} {prev next : K}
    {e : NEffect K} (hl : cs.length = fs.length) (hnd : fs.Nodup) (hd : NExp.var "(dummy)" ∉ fs)
    (hmem : NExp.var f ∈ fs)
    (h : nonCircular d f ((fs ++ [NExp.var "(dummy)"]).zip (cs ++ [b])) prev next = some e)
    (hself : ∀ i (hi : i < fs.length), fs[i] = .var f → Printable d (cs[i] - 1))
    (hother : ∀ i (hi : i < fs.length), fs[i] ≠ .var f → Printable d cs[i]) (hb : Printable d b)
    (x : String → K) : e.target = f ∧ e.newValue x = linearValue x cs fs + b := by
  have hneg : ∀ c : K, Printable d c → Printable d (-c) := by
    rintro c (rfl | ⟨h1, h2⟩)
    · exact Or.inl neg_zero
    · exact Or.inr ⟨h1.neg, by rwa [abs_neg]⟩
  have hf : f ≠ "(dummy)" := by rintro rfl; exact hd hmem
  have hkeys : ((fs ++ [NExp.var "(dummy)"]).zip (cs ++ [b])).map Prod.fst = fs ++ [.var "(dummy)"] := by
    rw [List.map_fst_zip]; simp [hl]
  obtain ⟨h1, h2⟩ := nonCircular_spec h (by
      rw [hkeys, List.nodup_append]
      exact ⟨hnd, by simp, by rintro a ha b hb rfl; simp only [List.mem_singleton] at hb; subst hb; exact hd ha⟩) hf (by
      intro c hc
      unfold changeCoefs at hc
      obtain ⟨p, hp, rfl⟩ := List.mem_map.mp hc
      have hp' : (∃ i, ∃ hi : i < fs.length, p = (fs[i], cs[i])) ∨ p = (.var "(dummy)", b) := by
        rw [List.zip_append hl.symm, List.mem_append] at hp
        rcases hp with hp | hp
        · left
          obtain ⟨i, hi, rfl⟩ := List.mem_iff_getElem.mp hp
          exact ⟨i, by simp at hi; omega, by simp⟩
        · right; simpa using hp
      rcases hp' with ⟨i, hi, rfl⟩ | rfl
      · by_cases he : fs[i] = .var f
        · have a := hself i hi he
          simp only [he, if_true]
          split_ifs
          · exact a
          · rw [← neg_sub]; exact hneg _ a
        · have := hother i hi he
          simp only [he, if_false]
          split_ifs
          · exact this
          · exact hneg _ this
      · have he : ¬ (NExp.var "(dummy)" : NExp K) = .var f := by
          intro e; exact hf (by simpa using e.symm)
        simp only [he, if_false]
        split_ifs
        · exact hb
        · exact hneg _ hb) x
  refine ⟨h1, ?_⟩
  rw [h2, ← sum_zipWith_featVal_dummy hl hd, List.zip, List.map_zipWith, List.zipWith_comm]

/-- **C41.** The effect is always produced when the fluent is a feature. -/
theorem C41_non_circular_defined {d : Nat} {f : String} {m : List (NExp K × K)} {prev next : K}
    (hk : NExp.var f ∈ m.map Prod.fst) : (nonCircular d f m prev next).isSome := nonCircular_isSome hk

end

/-! Concrete cases, and the limits of C40 and C41. -/

/-- Meets the hypotheses of C40. -/
example : (∀ c ∈ [(3 / 2 : ℚ), 0, -7], Printable 4 c) ∧
    (mulTerms 4 [(3 / 2 : ℚ), 0, -7] [.var "(f ?x)", .var "(g ?x)", .var "(h)"]).length = 2 := by
  refine ⟨?_, by decide +kernel⟩
  intro c hc
  simp only [List.mem_cons, List.not_mem_nil, or_false] at hc
  rcases hc with rfl | rfl | rfl
  · exact Or.inr ⟨⟨15000, by norm_num⟩, by norm_num [abs_of_pos]⟩
  · exact Or.inl rfl
  · exact Or.inr ⟨⟨-70000, by norm_num⟩, by norm_num [abs_of_neg]⟩

/-- Limit of C40: a coefficient of exactly one unit of the last digit is not printed at all, and a
third is printed as 0.3333. -/
theorem C40_limit_rounding :
    mulTerms 4 [(1 / 10000 : ℚ), 1 / 3] [.var "(f ?x)", .var "(g ?x)"] =
      [.mul (.var "(g ?x)") (.num (3333 / 10000))] := by decide +kernel

/-- Limit of C40: when every coefficient is dropped there is no expression at all. -/
theorem C40_limit_empty : linExp (mulTerms 4 [(1 / 10000 : ℚ), 0] [.var "(f ?x)", .var "(g ?x)"]) = .nil := by
  decide +kernel

/-- Limit of C40: a fluent called `dummy` is taken for the constant term. -/
theorem C40_limit_dummy : mulTerms 4 [(2 : ℚ)] [.var "(dummy)"] = [.num 2] := by decide +kernel

/-- Meets the hypotheses of C41: `f := 3 f + 2 g + 1`, printed as an increase by `2 f + 2 g + 1`. -/
example : nonCircular 4 "(f)" [(.var "(f)", (3 : ℚ)), (.var "(g)", 2), (.var "(dummy)", 1)] 0 1 =
    some ⟨.increase, "(f)", .add (.mul (.var "(f)") (.num 2)) (.add (.mul (.var "(g)") (.num 2)) (.num 1))⟩ ∧
    nonCircular 4 "(f)" [(.var "(f)", (3 : ℚ)), (.var "(g)", 2), (.var "(dummy)", 1)] 1 0 =
    some ⟨.decrease, "(f)", .add (.mul (.var "(f)") (.num (-2))) (.add (.mul (.var "(g)") (.num (-2))) (.num (-1)))⟩ := by
  decide +kernel

/-! ### Monomials -/

/-- **C42.** The monomials for a degree are exactly the sorted non-empty words over the fluents:
single fluents for degree 0, at most two distinct fluents for degree 1, at most `d` factors for
degree `d ≥ 2`. -/
theorem C42_monomials_complete {fs : List String} (hnd : fs.Nodup) {deg : Nat} {m : List String} :
    m ∈ createMonomials fs deg ↔ m ≠ [] ∧ m.Pairwise (· ≤ ·) ∧ (∀ f ∈ m, f ∈ fs) ∧
      m.length ≤ (if deg = 0 then 1 else if deg = 1 then 2 else deg) ∧ (deg = 1 → m.Nodup) :=
  mem_createMonomials hnd

/-- **C42.** No monomial is listed twice, and different monomials have different texts. -/
theorem C42_monomials_distinct {K : Type} {fs : List String} (hnd : fs.Nodup) (deg : Nat) :
    ((createMonomials fs deg).map (polyExp (K := K))).Nodup :=
  (createMonomials_nodup hnd deg).map (fun _ _ h => polyExp_injective h)

/-- **C42.** The text of a monomial has as value the product of the fluents. -/
theorem C42_polynomial_value {K : Type} [Field K] (x : String → K) {m : List String} (h : m ≠ []) :
    (polyExp m).eval x = (m.map x).prod := eval_polyExp x h

/-- **C42.** Grounding gives a monomial the product of the values of its fluents, exactly when all
of them have a value in the state. -/
theorem C42_grounding {K : Type} [Field K] [DecidableEq K] (ms : List (List String)) (state : List (String × K))
    (m : List String) :
    (groundMonomials ms state).lookup m =
      if m ∈ ms ∧ ∀ f ∈ m, f ∈ state.map Prod.fst then some (m.map fun f => (state.lookup f).getD 0).prod else none :=
  lookup_groundMonomials ms state m

example : ["(g)", "(f ?x)"].Nodup ∧ createMonomials ["(g)", "(f ?x)"] 2 =
      [["(g)"], ["(f ?x)"], ["(g)", "(g)"], ["(f ?x)", "(g)"], ["(f ?x)", "(f ?x)"]] ∧
    groundMonomials [["(f ?x)", "(g)"], ["(h)"], ["(g)", "(g)"]] [("(g)", (3 : ℚ)), ("(f ?x)", 2)] =
      [(["(f ?x)", "(g)"], 6), (["(g)", "(g)"], 9)] := by decide +kernel

/-! ### Elimination -/

/-- **C43.** On the points that satisfy all the equalities of the complementary basis, reduced and
original inequalities have the same left sides: the region does not change. -/
theorem C43_reduction_keeps_region {K : Type} [Field K] [LinearOrder K] {hull basis : List (List K)} {b : List K} {n : Nat}
    (hb : ∀ v ∈ basis, v.length = n) (hh : ∀ r ∈ hull, r.length = n) {x : List K} (hx : x.length = n)
    (hx0 : ∀ v ∈ basis, (List.zipWith (· * ·) v x).sum = 0) :
    List.Forall₂ (fun r c => (List.zipWith (· * ·) r x).sum ≤ c) (reduceComplementary hull basis) b ↔
    List.Forall₂ (fun r c => (List.zipWith (· * ·) r x).sum ≤ c) hull b := by
  have h := (reduceComplementary_rows hb hh hx hx0).1
  have key : ∀ (l : List (List K)), List.Forall₂ (fun r c => (List.zipWith (· * ·) r x).sum ≤ c) l b ↔
      List.Forall₂ (· ≤ ·) (l.map (fun r => ldot r x)) b := by
    intro l
    rw [List.forall₂_map_left_iff]; rfl
  rw [key, key, h]

/-- **C43.** The variable chosen for the last equality is really eliminated. -/
theorem C43_eliminates {K : Type} [Field K] [LinearOrder K] {hull basis : List (List K)} {v : List K} {i : Nat} {n : Nat}
    (hb : ∀ v ∈ basis, v.length = n) (hv : v.length = n) (hh : ∀ r ∈ hull, r.length = n)
    (hi : v.findIdx? (· ≠ 0) = some i) :
    ∀ r ∈ reduceComplementary hull (basis ++ [v]), r.getD i 0 = 0 := by
  have hf : ∀ (v : List K), firstNonZero v = v.findIdx? (· ≠ 0) := by
    intro v
    induction v with
    | nil => rfl
    | cons a v ih =>
      rw [firstNonZero, List.findIdx?_cons, ih]
      by_cases ha : a = 0 <;> simp [ha]
  rw [← hf] at hi
  obtain ⟨hlt, _, _⟩ := firstNonZero_some hi
  have hrows := (reduceComplementary_rows (x := List.replicate n 0) hb hh (by simp) (by
      intro v _
      unfold ldot
      have : ∀ (l : List K) (n : Nat), (List.zipWith (· * ·) l (List.replicate n 0)).sum = 0 := by
        intro l
        induction l with
        | nil => intro n; simp
        | cons a l ih => intro n; cases n with
          | zero => simp
          | succ n => simp [List.replicate_succ, ih]
      exact this _ _)).2
  intro r hr
  unfold reduceComplementary at hr hrows
  rw [List.foldl_append, List.foldl_cons, List.foldl_nil, hi] at hr
  obtain ⟨q, hq, rfl⟩ := List.mem_map.mp hr
  exact reduceRow_col (by rw [hrows q hq, ← hv]; exact hlt) (by rw [hv, hrows q hq])

/-- Meets the hypotheses of C43: the equality `x + y - 2 z = 0` removes `x`. -/
example : reduceComplementary [[(2 : ℚ), 1, 0], [0, 0, 1]] [[1, 1, -2]] = [[0, -1, 4], [0, 0, 1]] ∧
    (List.zipWith (· * ·) [(1 : ℚ), 1, -2] [3, 1, 2]).sum = 0 := by decide +kernel

/-- Limit of C43: with several equalities an eliminated variable may come back, because the
equalities are not reduced against each other. -/
theorem C43_limit_reintroduced : reduceComplementary [[(1 : ℚ), 1, 0]] [[0, 1, 0], [1, 1, 0]] = [[0, -1, 0]] := by decide +kernel

end Props
