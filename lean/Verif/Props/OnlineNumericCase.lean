import Verif.Props.OnlineNumeric
import Verif.Props.NumSamCase

/-!
A concrete case of C79: an action that needs between two and six units of fuel and uses one. The history has two successful attempts (5
and 3 units) and two failed ones (1 and 7 units).
-/
namespace Props.OnlineCase
open Model Spec

abbrev col : List String := ["(fuel ?o)"]

/-- The regression finds constant columns. -/
def lib : NumLib ℚ (List String) where
  qhull _ _ := none
  fit := fun feats c rows => match rows with
    | [] => none
    | r :: rs => if rs.all fun r' => r' c = r c then some (feats.map fun _ => 0, r c) else none
  norm := fun v => ∑ i, |v i|

noncomputable def cfg : ONumCfg ℚ := ⟨lib, guessLib [([col], [1], -1)], SvmCase.fitOn col, 4, 0, true⟩

def attempt (before after : ℚ) (ok : Bool) : Transition ℚ := ⟨[("(fuel ?o)", before)], [("(fuel ?o)", after)], ok⟩

def history : List (Transition ℚ) := [attempt 5 4 true, attempt 1 1 false, attempt 3 2 true, attempt 7 7 false]

abbrev fs : List String := ["(fuel ?o)"]

theorem cols_eq : createMonomials fs 0 = [col] := rfl

theorem full : FullHistory fs history where
  nodup := by decide
  some := by decide
  notDummy := by decide
  pre := by decide
  post := by decide

def row (q : ℚ) : List String → ℚ := frameRow [col] (valOf [("(fuel ?o)", q)])

theorem points_eq : successPoints fs 0 history = [row 5, row 3] := rfl

theorem row_col (q : ℚ) : row q col = q := by simp [row, frameRow, monoVal, valOf]

theorem row_other (q : ℚ) {m : List String} (h : m ≠ col) : row q m = 0 := by
  unfold row frameRow
  rw [if_neg (by simpa using h)]

theorem distinct_eq : distinctRows [col] [] [row 5, row 3] = [row 5, row 3] := by
  have h : agree [col] (row 5) (row 3) = false := by
    simp only [agree, List.all_cons, List.all_nil, Bool.and_true, decide_eq_false_iff_not, row_col]
    norm_num
  simp [distinctRows, h, agree, row_col]

theorem lib_fit : FitContract lib := by
  intro feats c rows cs b h
  unfold lib at h
  cases rows with
  | nil => simp at h
  | cons r rs =>
    dsimp only at h
    split_ifs at h with hc
    simp only [Option.some.injEq, Prod.mk.injEq] at h
    obtain ⟨rfl, rfl⟩ := h
    refine ⟨by simp, fun r' hr' => ?_⟩
    have hz : (List.zipWith (fun a f => a * r' f) (feats.map fun _ => (0 : ℚ)) feats).sum = 0 := by
      induction feats with
      | nil => rfl
      | cons a l ih => simpa using ih
    rw [hz, zero_add]
    rcases List.mem_cons.mp hr' with rfl | hr'
    · rfl
    · simpa using List.all_eq_true.mp hc r' hr'

theorem lib_complete : ∀ pre, pre ≠ [] → pre <+: [row 5, row 3] → FitComplete lib pre := by
  intro pre hne hpre feats c a b hfe hc h hfit
  have hp : pre = [row 5] ∨ pre = [row 5, row 3] := by
    have hm : pre ∈ [row 5, row 3].inits := (List.mem_inits _ _).mpr hpre
    simp only [List.inits, List.map_cons, List.map_nil, List.mem_cons, List.not_mem_nil, or_false] at hm
    rcases hm with h | h | h
    · exact absurd h hne
    · exact .inl h
    · exact .inr h
  rcases hp with rfl | rfl
  · simp [lib] at hfit
  · by_cases hm : c = col
    · subst hm
      have hz : ∀ q, (feats.map fun f => a f * row q f).sum = 0 := by
        intro q
        apply List.sum_eq_zero
        intro y hy
        obtain ⟨f, hf, rfl⟩ := List.mem_map.mp hy
        rw [row_other q (by rintro rfl; exact hc hf), mul_zero]
      have h5 := h (row 5) (by simp)
      have h3 := h (row 3) (by simp)
      rw [hz, row_col] at h5 h3
      linarith
    · simp [lib, row_other _ hm] at hfit

theorem inc : IncSetup cfg.lib cfg.digits polyExp (createMonomials fs 0)
    (distinctRows (createMonomials fs 0) [] (successPoints fs 0 history)) := by
  rw [points_eq, cols_eq, distinct_eq]
  have hrows : ∀ r ∈ [row 5, row 3], r col = 5 ∨ r col = 3 := by
    intro r hr
    simp only [List.mem_cons, List.not_mem_nil, or_false] at hr
    rcases hr with rfl | rfl
    · exact .inl (row_col 5)
    · exact .inr (row_col 3)
  refine ⟨⟨?_, lib_fit, lib_complete _ (by simp) (List.prefix_refl _), by decide, by simp, by simp, ?_, ?_, ?_, ?_, ?_⟩, ?_, ?_, ?_, lib_complete⟩
  · exact ⟨fun h => by simp [cfg, lib] at h, fun h => by simp [cfg, lib] at h⟩
  · intro c hc
    have : c = col := by simpa using hc
    subst this
    decide +kernel
  · intro r hr c hc
    have : c = col := by simpa using hc
    subst this
    rcases hrows r hr with h | h <;> rw [h]
    · exact_mod_cast printable_int 5
    · exact_mod_cast printable_int 3
  · intro feats c cs b h k hk
    have h : lib.fit feats c [row 5, row 3] = some (cs, b) := h
    by_cases hm : c = col
    · subst hm
      simp [lib, row_col] at h
    · simp [lib, row_other _ hm] at h
      obtain ⟨rfl, rfl⟩ := h
      left
      simp at hk
      rcases hk with h | h
      · exact h.2
      · exact h
  · intro left h he; simp [cfg, lib] at he
  · intro left hl r hr s hs
    by_cases hin : ∃ r' ∈ s, ∀ c ∈ left, r' c = r c
    · exact .inl (tri_inAffine hin)
    · right
      push Not at hin
      intro q hq
      have hleft : left = [] ∨ left = [col] := by
        cases left with
        | nil => exact .inl rfl
        | cons c t =>
          right
          have := hl.length_le
          have ht : t = [] := by cases t with | nil => rfl | cons => simp at this
          subst ht
          have := hl.subset (show c ∈ [c] by simp)
          simpa using this
      by_cases hs0 : s = []
      · subst hs0
        obtain ⟨w, h1, h2, _⟩ := hq
        have : w = [] := by simpa using h1
        subst this
        simp at h2
      · obtain ⟨r0, hr0⟩ := List.exists_mem_of_ne_nil _ hs0
        rcases hleft with rfl | rfl
        · obtain ⟨c, hc, _⟩ := hin r0 hr0; simp at hc
        · have hother : ∀ r' ∈ s, r' col = 8 - r col := by
            intro r' hr'
            obtain ⟨c, hc, hne⟩ := hin r' hr'
            have : c = col := by simpa using hc
            subst this
            rcases hrows r hr with h | h <;> rcases hrows r' (hs r' hr') with h' | h' <;> rw [h, h'] at hne ⊢ <;> first | exact absurd rfl hne | norm_num
          refine ⟨col, by simp, ?_⟩
          rw [tri_affine_const hq (by simp) hother]
          rcases hrows r hr with h | h <;> rw [h] <;> norm_num [cfg, abs]
  · intro n v hv
    obtain ⟨i, hi⟩ := Function.ne_iff.mp hv
    have : 0 < ∑ i, |v i| := Finset.sum_pos' (fun i _ => abs_nonneg _) ⟨i, Finset.mem_univ _, abs_pos.mpr hi⟩
    exact this.ne'
  · exact fun v => (Fin.sum_univ_one (fun i => |v i|) : ∑ i, |v i| = |v 0|)
  · intro c hc c' hc' _
    have h1 : c = col := by simpa using hc
    have h2 : c' = col := by simpa using hc'
    rw [h1, h2]

theorem run_ok : (onumLearned cfg fs 0 history).2 = false := by decide +kernel

/-- The safe model: between 3 and 5 units, one unit less. -/
theorem safe : ∃ p, (onumLearned cfg fs 0 history).1.safeModel cfg = .ok p ∧
    p.pre = [⟨.ge, .var "(fuel ?o)", .num 3⟩, ⟨.le, .var "(fuel ?o)", .num 5⟩] ∧ p.eff = [⟨.decrease, "(fuel ?o)", .num 1⟩] := by
  have h : (match (onumLearned cfg fs 0 history).1.safeModel cfg with
    | .ok p => decide (p.pre = [⟨.ge, .var "(fuel ?o)", .num 3⟩, ⟨.le, .var "(fuel ?o)", .num 5⟩] ∧ p.eff = [⟨.decrease, "(fuel ?o)", .num 1⟩])
    | .error _ => false) = true := by decide +kernel
  revert h
  cases (onumLearned cfg fs 0 history).1.safeModel cfg with
  | error e => intro h; exact absurd h (by simp)
  | ok p => intro h; exact ⟨p, rfl, of_decide_eq_true h⟩

/-- The optimistic model: between 2 and 6 units. -/
theorem optimistic : ∃ o, (onumLearned cfg fs 0 history).1.optimisticModel cfg = .ok o ∧
    o.pre = [⟨.ge, .mul (.var "(fuel ?o)") (.num (-1)), .num (-6)⟩, ⟨.ge, .var "(fuel ?o)", .num 2⟩] := by
  have h : (match (onumLearned cfg fs 0 history).1.optimisticModel cfg with
    | .ok p => decide (p.pre = [⟨.ge, .mul (.var "(fuel ?o)") (.num (-1)), .num (-6)⟩, ⟨.ge, .var "(fuel ?o)", .num 2⟩])
    | .error _ => false) = true := by decide +kernel
  revert h
  cases (onumLearned cfg fs 0 history).1.optimisticModel cfg with
  | error e => intro h; exact absurd h (by simp)
  | ok p => intro h; exact ⟨p, rfl, of_decide_eq_true h⟩

theorem labeled_eq : labeledPoints fs 0 history = [(row 5, true), (row 1, false), (row 3, true), (row 7, false)] := rfl

theorem separable : ∀ t ∈ history, t.ok = false → ∃ a b, Separates (createMonomials fs 0) (successPoints fs 0 history)
    (frameRow (createMonomials fs 0) (valOf t.pre)) a b := by
  intro t ht hok
  rw [points_eq, cols_eq]
  simp only [history, List.mem_cons, List.not_mem_nil, or_false] at ht
  rcases ht with rfl | rfl | rfl | rfl
  · simp [attempt] at hok
  · refine ⟨[1], 2, rfl, ?_, ?_⟩
    · show form [1] [col] (row 1) < 2
      rw [SvmCase.form_one, row_col]; norm_num
    · simp [SvmCase.form_one, row_col]
      norm_num
  · simp [attempt] at hok
  · refine ⟨[-1], -6, rfl, ?_, ?_⟩
    · show form [-1] [col] (row 7) < -6
      rw [SvmCase.form_one, row_col]; norm_num
    · simp [SvmCase.form_one, row_col]
      norm_num

theorem print : SvmPrint cfg.svm cfg.digits polyExp (createMonomials fs 0) (labeledPoints fs 0 history) := by
  rw [labeled_eq, cols_eq]
  refine ⟨?_, ?_⟩
  · rintro x data a b hx ⟨⟨pre, post, rfl, hall⟩, hpos⟩ hf
    have hpre : ∀ r ∈ pre, r.2 = true := fun r hr => hall r (by simp [hr])
    have hpost : ∀ r ∈ post, r.2 = true := fun r hr => hall r (by simp [hr])
    have hs : successes [(row 5, true), (row 1, false), (row 3, true), (row 7, false)] = [row 5, row 3] := rfl
    have e2 : (pre ++ (x, false) :: post).filter (!·.2) = [(x, false)] := by
      rw [List.filter_append, List.filter_cons]
      rw [List.filter_eq_nil_iff.mpr (by simpa using hpre), List.filter_eq_nil_iff.mpr (by simpa using hpost)]
      rfl
    have e3 : ((pre ++ (x, false) :: post).filter (·.2)).map (fun r => r.1 col) = [5, 3] := by
      have := congrArg (List.map fun r : List String → ℚ => r col) hpos
      rw [List.map_map, hs] at this
      simpa [row_col, Function.comp_def] using this
    have hf : SvmCase.fitOn col [col] (pre ++ (x, false) :: post) = some (a, b) := hf
    unfold SvmCase.fitOn at hf
    rw [e2, e3] at hf
    simp only [List.mem_cons, Prod.mk.injEq, Bool.false_eq_true, and_false, and_true, List.not_mem_nil, or_false, false_or] at hx
    have key : (a, b) = ([1], 2) ∨ (a, b) = ([-1], -6) := by
      rcases hx with rfl | rfl
      · left
        simp [row_col] at hf
        norm_num at hf
        rw [← hf.1, ← hf.2]
      · right
        simp [row_col] at hf
        norm_num at hf
        rw [← hf.1, ← hf.2]
    rcases key with h | h <;> obtain ⟨rfl, rfl⟩ := Prod.mk.inj h <;> refine ⟨fun k hk => ?_, ?_⟩
    · rw [List.mem_singleton.mp hk]; exact_mod_cast printable_int 1
    · exact_mod_cast printable_int 2
    · rw [List.mem_singleton.mp hk]; exact_mod_cast printable_int (-1)
    · exact_mod_cast printable_int (-6)
  · intro c hc
    have : c = col := by simpa using hc
    subst this
    decide +kernel

theorem run_eq : onumLearned cfg fs 0 history = ((onumLearned cfg fs 0 history).1, false) := Prod.ext rfl run_ok

theorem feats_eq : regFeats 4 [col] [col] (transitionRows fs 0 history) = [col] := by decide +kernel

theorem printable : CoefficientsPrintable cfg.reg cfg.digits (createMonomials fs 0) (fs.map ([·])) (transitionRows fs 0 history) := by
  intro f hf
  have : f = col := by simpa using hf
  subst this
  have e0 : regFeats cfg.digits (createMonomials fs 0) (fs.map ([·])) (transitionRows fs 0 history) = [col] := feats_eq
  rw [e0]
  have e : cfg.reg.solve [col] (regLabels (createMonomials fs 0) (fs.map ([·])) (transitionRows fs 0 history) col) = (([1], -1), true) := by decide +kernel
  rw [e]
  refine ⟨?_, ?_⟩
  · intro c hc
    simp only [List.cons_append, List.nil_append, List.mem_cons, List.not_mem_nil, or_false] at hc
    rcases hc with rfl | rfl
    · exact_mod_cast printable_int 1
    · exact_mod_cast printable_int (-1)
  · intro i hi hi' _
    have : i = 0 := by simpa using hi
    subst this
    left
    simp

/-- All hypotheses of C79 are met together. In every state that satisfies the safe precondition: it is between the observed ones, it
satisfies the optimistic precondition, and the learned effect is exact. -/
example {p o : NumPart ℚ} (hp : (onumLearned cfg fs 0 history).1.safeModel cfg = .ok p) (ho : (onumLearned cfg fs 0 history).1.optimisticModel cfg = .ok o)
    (x : String → ℚ) (hx : ∀ q ∈ p.pre, q.holds x) :
    InHull [col] [row 5, row 3] (monoVal x) ∧ (∀ q ∈ o.pre, q.holds x) ∧ applyNumeric p.eff x "(fuel ?o)" = 1 * monoVal x col + 0 + -1 := by
  obtain ⟨p', h', _, he⟩ := safe
  have : p' = p := by rw [h'] at hp; simpa using hp
  subst this
  refine ⟨(C79_safe_precondition full rfl run_eq inc hp x).mp hx,
    C79_safe_implies_optimistic full rfl run_eq inc print (SvmCase.contractOn col) separable hp ho hx, ?_⟩
  refine C79_safe_effects full rfl (by decide) (guess_contract _) run_eq inc printable hp (by rw [he]; decide) (by simp) ⟨[col], fun _ => 1, -1⟩
    (by simp [cols_eq]) ?_ hx
  intro t ht hok
  simp only [history, List.mem_cons, List.not_mem_nil, or_false] at ht
  rcases ht with rfl | rfl | rfl | rfl
  · simp [attempt, valOf, Affine.value, monoVal]; norm_num
  · simp [attempt] at hok
  · simp [attempt, valOf, Affine.value, monoVal]; norm_num
  · simp [attempt] at hok

/-- The state with 4 units, never observed, satisfies the safe precondition. -/
example {p : NumPart ℚ} (hp : (onumLearned cfg fs 0 history).1.safeModel cfg = .ok p) : ∀ q ∈ p.pre, q.holds fun _ => (4 : ℚ) := by
  obtain ⟨p', h', hpre, _⟩ := safe
  have : p' = p := by rw [h'] at hp; simpa using hp
  subst this
  rw [hpre]
  intro q hq
  simp only [List.mem_cons, List.not_mem_nil, or_false] at hq
  rcases hq with rfl | rfl
  · show (3 : ℚ) ≤ 4; norm_num
  · show (4 : ℚ) ≤ 5; norm_num

end Props.OnlineCase
