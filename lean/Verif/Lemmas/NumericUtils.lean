import Verif.Model.NumericUtils
import Mathlib.Tactic.Ring
import Mathlib.Tactic.Linarith
import Mathlib.Tactic.FieldSimp
import Mathlib.Tactic.Positivity
import Mathlib.Tactic.NormNum
import Mathlib.Algebra.Order.BigOperators.Group.List

namespace Model
open Spec

section
variable {K : Type} [Field K] [LinearOrder K] [IsStrictOrderedRing K]

theorem pow10_pos (d : Nat) : (0 : K) < 10 ^ d := by positivity

theorem epsOf_pos (d : Nat) : (0 : K) < epsOf K d := by unfold epsOf; positivity

theorem _root_.Spec.OnGrid.neg {d : Nat} {x : K} (h : OnGrid d x) : OnGrid d (-x) := by
  obtain ⟨n, hn⟩ := h
  exact ⟨-n, by push_cast; rw [← hn]; ring⟩

theorem _root_.Spec.OnGrid.addInt {d : Nat} {x : K} (h : OnGrid d x) (k : Int) : OnGrid d (x + k) := by
  obtain ⟨n, hn⟩ := h
  exact ⟨n + k * 10 ^ d, by push_cast; rw [← hn]; ring⟩

variable [FloorRing K]

theorem rnd_onGrid (d : Nat) (x : K) : OnGrid d (rnd d x) := by
  have h := (pow10_pos (K := K) d).ne'
  unfold rnd OnGrid
  dsimp only
  split_ifs
  · exact ⟨_, div_mul_cancel₀ _ h⟩
  · exact ⟨_, div_mul_cancel₀ _ h⟩
  · exact ⟨_, div_mul_cancel₀ _ h⟩
  · exact ⟨_, div_mul_cancel₀ _ h⟩

theorem rnd_err (d : Nat) (x : K) : |rnd d x - x| ≤ epsOf K d / 2 := by
  have hp := pow10_pos (K := K) d
  have key : ∀ z : K, |z - x * 10 ^ d| ≤ 1 / 2 → |z / 10 ^ d - x| ≤ epsOf K d / 2 := by
    intro z hz
    have : z / 10 ^ d - x = (z - x * 10 ^ d) / 10 ^ d := by field_simp
    rw [this, abs_div, abs_of_pos hp, epsOf, div_le_iff₀ hp]
    have : (1 : K) / 10 ^ d / 2 * 10 ^ d = 1 / 2 := by field_simp
    rw [this]; exact hz
  have h1 := Int.floor_le (x * 10 ^ d)
  have h2 := Int.lt_floor_add_one (x * 10 ^ d)
  unfold rnd
  dsimp only
  split_ifs with c1 c2 c3 <;> apply key <;> rw [abs_le] <;> push_cast <;> constructor <;> linarith

theorem rnd_of_onGrid {d : Nat} {x : K} (h : OnGrid d x) : rnd d x = x := by
  obtain ⟨n, hn⟩ := h
  have hp := pow10_pos (K := K) d
  unfold rnd
  simp only [hn, Int.floor_intCast, sub_self]
  rw [if_pos (by norm_num), ← hn]
  field_simp

theorem prettify_of_onGrid {d : Nat} {x : K} (h : OnGrid d x) : prettify d x = x := by
  unfold prettify
  split_ifs with hc
  swap
  · rfl
  obtain ⟨n, hn⟩ := h
  have hp := pow10_pos (K := K) d
  have key : ∀ m : Int, |x - m| < epsOf K d → (m : K) = x := by
    intro m hm
    have e : (x - m) * 10 ^ d = ((n - m * 10 ^ d : Int) : K) := by push_cast; rw [← hn]; ring
    have : |(x - m) * 10 ^ d| < 1 := by
      rw [abs_mul, abs_of_pos hp]
      calc |x - m| * 10 ^ d < epsOf K d * 10 ^ d := by gcongr
        _ = 1 := by unfold epsOf; field_simp
    rw [e, ← Int.cast_abs] at this
    have h0 : |n - m * 10 ^ d| < 1 := by exact_mod_cast this
    have h1 : n - m * 10 ^ d = 0 := Int.abs_lt_one_iff.mp h0
    rw [h1, Int.cast_zero] at e
    rcases mul_eq_zero.mp e with e | e
    · exact (sub_eq_zero.mp e).symm
    · exact absurd e hp.ne'
  unfold trunc at hc ⊢
  split_ifs at hc ⊢
  · exact key _ hc
  · exact key _ hc

theorem prettify_rnd (d : Nat) (x : K) : prettify d (rnd d x) = rnd d x := prettify_of_onGrid (rnd_onGrid d x)

theorem rnd_zero (d : Nat) : rnd d (0 : K) = 0 := rnd_of_onGrid ⟨0, by simp⟩

/-- The value a dropped or rounded coefficient is printed with. -/
def printed (d : Nat) (c : K) : K := if |rnd d c| ≤ epsOf K d then 0 else rnd d c

theorem printed_of_printable {d : Nat} {c : K} (h : Printable d c) : printed d c = c := by
  unfold printed
  rcases h with rfl | ⟨h, h'⟩
  · rw [rnd_zero]; simp
  · rw [rnd_of_onGrid h]; exact if_neg (not_le.mpr h')

theorem printed_err (d : Nat) (c : K) : |printed d c - c| ≤ 3 / 2 * epsOf K d := by
  have h := rnd_err d c
  have hp := epsOf_pos (K := K) d
  unfold printed
  split_ifs with hc
  · rw [zero_sub, abs_neg]
    have : |c| ≤ |rnd d c| + |rnd d c - c| := by
      have := abs_sub_abs_le_abs_sub c (rnd d c)
      rw [abs_sub_comm] at this
      linarith
    linarith
  · linarith

theorem prettifyCoefs_of_printable {d : Nat} {cs : List K} (h : ∀ c ∈ cs, Printable d c) :
    prettifyCoefs d cs = cs := by
  unfold prettifyCoefs
  rw [List.map_map]
  conv_rhs => rw [← List.map_id cs]
  apply List.map_congr_left
  intro c hc
  simp only [Function.comp_apply, id]
  rcases h c hc with rfl | ⟨h, h'⟩
  · simp [rnd_zero]
  · rw [show (if epsOf K d < |c| then c else 0) = c from if_pos h', rnd_of_onGrid h]

/-- The value of a feature; the placeholder of the constant term counts one. -/
def featVal (x : String → K) (f : NExp K) : K := if f = dummy then 1 else f.eval x

theorem eval_linExp (x : String → K) (ts : List (NExp K)) :
    (linExp ts).eval x = (ts.map (NExp.eval x)).sum := by
  induction ts with
  | nil => rfl
  | cons t ts ih =>
    cases ts with
    | nil => simp [linExp]
    | cons u us =>
      show NExp.eval x (.add t (linExp (u :: us))) = _
      rw [NExp.eval, ih]; simp

theorem wf_linExp {ts : List (NExp K)} (hne : ts ≠ []) (h : ∀ t ∈ ts, t.wellFormed = true) :
    (linExp ts).wellFormed = true := by
  induction ts with
  | nil => exact absurd rfl hne
  | cons t ts ih =>
    cases ts with
    | nil => exact h t (by simp)
    | cons u us =>
      show (NExp.add t (linExp (u :: us))).wellFormed = true
      rw [NExp.wellFormed, h t (by simp), ih (by simp) (fun t ht => h t (by simp [ht]))]; rfl

/-- One printed term. -/
def termOf (d : Nat) (p : NExp K × K) : Option (NExp K) :=
  if |rnd d p.2| ≤ epsOf K d then none
  else if p.1 = dummy then some (.num (prettify d (rnd d p.2)))
  else if p.2 = 1 then some p.1
  else some (.mul p.1 (.num (prettify d (rnd d p.2))))

theorem mulTerms_eq (d : Nat) (cs : List K) (fs : List (NExp K)) :
    mulTerms d cs fs = (fs.zip cs).filterMap (termOf d) := rfl

theorem termOf_val (d : Nat) (x : String → K) (p : NExp K × K) :
    ((termOf d p).map (NExp.eval x)).getD 0 = printed d p.2 * featVal x p.1 := by
  unfold termOf printed featVal
  by_cases h1 : |rnd d p.2| ≤ epsOf K d
  · simp [h1]
  by_cases h2 : p.1 = dummy
  · simp [h1, h2, NExp.eval, prettify_rnd]
  by_cases h3 : p.2 = 1
  · have h4 : rnd d (1 : K) = 1 := rnd_of_onGrid ⟨10 ^ d, by push_cast; ring⟩
    rw [if_neg h1, if_neg h2, if_pos h3, if_neg h1, if_neg h2, h3, h4]
    simp
  · rw [if_neg h1, if_neg h2, if_neg h3, if_neg h1, if_neg h2]
    simp only [Option.map_some, Option.getD_some, NExp.eval, prettify_rnd]; ring

theorem sum_filterMap_getD {α : Type} (g : α → Option (NExp K)) (x : String → K) (l : List α) :
    ((l.filterMap g).map (NExp.eval x)).sum = (l.map fun a => ((g a).map (NExp.eval x)).getD 0).sum := by
  induction l with
  | nil => rfl
  | cons a l ih =>
    rw [List.filterMap_cons, List.map_cons, List.sum_cons, ← ih]
    cases g a <;> simp

theorem eval_mulTerms (d : Nat) (x : String → K) (cs : List K) (fs : List (NExp K)) :
    (linExp (mulTerms d cs fs)).eval x = (List.zipWith (fun c f => printed d c * featVal x f) cs fs).sum := by
  rw [eval_linExp, mulTerms_eq, sum_filterMap_getD]
  congr 1
  simp only [termOf_val]
  rw [List.zip, List.map_zipWith, List.zipWith_comm]

theorem eval_mulTerms_exact {d : Nat} {cs : List K} (h : ∀ c ∈ cs, Printable d c) (x : String → K)
    (fs : List (NExp K)) :
    (linExp (mulTerms d cs fs)).eval x = (List.zipWith (fun c f => c * featVal x f) cs fs).sum := by
  rw [eval_mulTerms]
  congr 1
  induction cs generalizing fs with
  | nil => simp
  | cons c cs ih =>
    cases fs with
    | nil => simp
    | cons f fs =>
      simp only [List.zipWith_cons_cons, printed_of_printable (h c (by simp))]
      rw [ih (fun c hc => h c (by simp [hc]))]

theorem eval_mulTerms_err (d : Nat) (x : String → K) (cs : List K) (fs : List (NExp K)) (hl : cs.length = fs.length) :
    |(linExp (mulTerms d cs fs)).eval x - (List.zipWith (fun c f => c * featVal x f) cs fs).sum|
      ≤ 3 / 2 * epsOf K d * (fs.map fun f => |featVal x f|).sum := by
  rw [eval_mulTerms]
  induction cs generalizing fs with
  | nil =>
    cases fs with
    | nil => simp
    | cons f fs => simp at hl
  | cons c cs ih =>
    cases fs with
    | nil => simp at hl
    | cons f fs =>
      simp only [List.zipWith_cons_cons, List.sum_cons, List.map_cons]
      have h1 := ih fs (by simpa using hl)
      have h2 : |printed d c * featVal x f - c * featVal x f| ≤ 3 / 2 * epsOf K d * |featVal x f| := by
        rw [← sub_mul, abs_mul]
        exact mul_le_mul_of_nonneg_right (printed_err d c) (abs_nonneg _)
      have h3 := abs_add_le (printed d c * featVal x f - c * featVal x f)
        ((List.zipWith (fun c f => printed d c * featVal x f) cs fs).sum -
          (List.zipWith (fun c f => c * featVal x f) cs fs).sum)
      have e : (printed d c * featVal x f + (List.zipWith (fun c f => printed d c * featVal x f) cs fs).sum) -
          (c * featVal x f + (List.zipWith (fun c f => c * featVal x f) cs fs).sum) =
          (printed d c * featVal x f - c * featVal x f) +
          ((List.zipWith (fun c f => printed d c * featVal x f) cs fs).sum -
          (List.zipWith (fun c f => c * featVal x f) cs fs).sum) := by ring
      rw [e]
      calc _ ≤ _ := h3
        _ ≤ 3 / 2 * epsOf K d * |featVal x f| + 3 / 2 * epsOf K d * (fs.map fun f => |featVal x f|).sum :=
          add_le_add h2 h1
        _ = _ := by ring

theorem mulTerms_wf {d : Nat} {cs : List K} {fs : List (NExp K)} (h : ∀ f ∈ fs, f.wellFormed = true) :
    ∀ t ∈ mulTerms d cs fs, t.wellFormed = true := by
  intro t ht
  rw [mulTerms_eq, List.mem_filterMap] at ht
  obtain ⟨p, hp, ht⟩ := ht
  have hf := h p.1 (List.of_mem_zip hp).1
  unfold termOf at ht
  split_ifs at ht
  · simp only [Option.some.injEq] at ht; subst ht; rfl
  · simp only [Option.some.injEq] at ht; subst ht; exact hf
  · simp only [Option.some.injEq] at ht; subst ht; simp [NExp.wellFormed, hf]

theorem mulTerms_ne_nil {d : Nat} {cs : List K} {fs : List (NExp K)} (hl : cs.length ≤ fs.length)
    (h : ∃ c ∈ cs, epsOf K d < |rnd d c|) : mulTerms d cs fs ≠ [] := by
  obtain ⟨c, hc, hlt⟩ := h
  obtain ⟨i, hi, rfl⟩ := List.mem_iff_getElem.mp hc
  intro he
  rw [mulTerms_eq, List.filterMap_eq_nil_iff] at he
  have hm : (fs[i]'(by omega), cs[i]) ∈ fs.zip cs := by
    rw [List.mem_iff_getElem]
    exact ⟨i, by simp; omega, by simp⟩
  have := he _ hm
  unfold termOf at this
  rw [if_neg (not_le.mpr hlt)] at this
  split_ifs at this

/-! ### Increase and decrease instead of assignments -/

theorem bumpKey_sum {k : NExp K} {δ : K} {m m' : List (NExp K × K)} (h : bumpKey k δ m = some m')
    (hnd : (m.map Prod.fst).Nodup) (v : NExp K → K) :
    (m'.map fun p => p.2 * v p.1).sum = (m.map fun p => p.2 * v p.1).sum + δ * v k := by
  unfold bumpKey at h
  split_ifs at h with hk
  simp only [Option.some.injEq] at h
  subst h
  rw [List.map_map]
  induction m with
  | nil => simp at hk
  | cons p m ih =>
    simp only [List.map_cons, List.nodup_cons, List.mem_cons] at hnd hk
    simp only [List.map_cons, List.sum_cons, Function.comp_apply]
    by_cases hp : p.1 = k
    · have hrest : (m.map ((fun p => p.2 * v p.1) ∘ fun p => if p.1 = k then (p.1, p.2 + δ) else p)).sum =
          (m.map fun p => p.2 * v p.1).sum := by
        congr 1
        apply List.map_congr_left
        intro q hq
        have hne : q.1 ≠ k := by
          intro e
          exact hnd.1 (List.mem_map.mpr ⟨q, hq, by rw [e, hp]⟩)
        simp [hne]
      rw [hrest]
      simp only [hp, if_true]
      ring
    · simp only [hp, if_false]
      rw [ih hnd.2 (hk.resolve_left (fun e => hp e.symm))]
      ring

theorem bumpKey_keys {k : NExp K} {δ : K} {m m' : List (NExp K × K)} (h : bumpKey k δ m = some m') :
    m'.map Prod.fst = m.map Prod.fst := by
  unfold bumpKey at h
  split_ifs at h
  simp only [Option.some.injEq] at h
  subst h
  rw [List.map_map]
  apply List.map_congr_left
  intro p _
  simp only [Function.comp_apply]
  split_ifs <;> rfl

theorem zipWith_snd_fst {α β : Type} (g : β → α → K) (m : List (α × β)) :
    (List.zipWith g (m.map Prod.snd) (m.map Prod.fst)) = m.map fun p => g p.2 p.1 := by
  rw [List.zipWith_map, List.zipWith_self]

/-- The coefficients that end up in the printed effect. -/
def changeCoefs (f : String) (m : List (NExp K × K)) (up : Bool) : List K :=
  m.map fun p => if up then (if p.1 = .var f then p.2 - 1 else p.2) else (if p.1 = .var f then 1 - p.2 else - p.2)

theorem nonCircular_spec {d : Nat} {f : String} {m : List (NExp K × K)} {prev next : K} {e : NEffect K}
    (h : nonCircular d f m prev next = some e) (hnd : (m.map Prod.fst).Nodup) (hf : f ≠ "(dummy)")
    (hp : ∀ c ∈ changeCoefs f m (decide (prev < next)), Printable d c) (x : String → K) :
    e.target = f ∧ e.newValue x = (m.map fun p => p.2 * featVal x p.1).sum := by
  have hfv : featVal x (.var f) = x f := by
    unfold featVal dummy
    rw [if_neg (by simpa using hf)]; rfl
  unfold nonCircular at h
  split_ifs at h with hlt
  · simp only [Option.map_eq_some_iff] at h
    obtain ⟨m', hm', rfl⟩ := h
    have hc : ∀ c ∈ m'.map Prod.snd, Printable d c := by
      intro c hc
      apply hp
      unfold bumpKey at hm'
      split_ifs at hm'
      simp only [Option.some.injEq] at hm'
      subst hm'
      simp only [hlt, decide_true, changeCoefs, List.map_map, List.mem_map, Function.comp_apply] at hc ⊢
      obtain ⟨p, hp', rfl⟩ := hc
      refine ⟨p, hp', ?_⟩
      simp only [if_true]
      split_ifs <;> simp [sub_eq_add_neg]
    refine ⟨rfl, ?_⟩
    simp only [NEffect.newValue]
    rw [eval_mulTerms_exact hc, zipWith_snd_fst, bumpKey_sum hm' hnd, hfv]
    ring
  · simp only [Option.map_eq_some_iff] at h
    obtain ⟨m', hm', rfl⟩ := h
    have hc : ∀ c ∈ m'.map Prod.snd, Printable d c := by
      intro c hc
      apply hp
      unfold bumpKey at hm'
      split_ifs at hm'
      simp only [Option.some.injEq] at hm'
      subst hm'
      simp only [hlt, decide_false, changeCoefs, List.map_map, List.mem_map, Function.comp_apply] at hc ⊢
      obtain ⟨p, hp', rfl⟩ := hc
      refine ⟨p, hp', ?_⟩
      simp only [Bool.false_eq_true, if_false]
      split_ifs <;> simp; ring
    refine ⟨rfl, ?_⟩
    simp only [NEffect.newValue]
    have hnd' : ((m.map fun p => (p.1, -p.2)).map Prod.fst).Nodup := by
      rw [List.map_map]; exact hnd
    rw [eval_mulTerms_exact hc, zipWith_snd_fst, bumpKey_sum hm' hnd', hfv]
    have : (List.map (fun p : NExp K × K => p.2 * featVal x p.1) (m.map fun p => (p.1, -p.2))).sum =
        - (m.map fun p => p.2 * featVal x p.1).sum := by
      rw [List.map_map]
      induction m with
      | nil => simp
      | cons p m ih =>
        clear hnd' hm' hc hp
        have ih' : (List.map ((fun p : NExp K × K => p.2 * featVal x p.1) ∘ fun p => (p.1, -p.2)) m).sum =
            -(List.map (fun p => p.2 * featVal x p.1) m).sum := by
          clear ih hnd
          induction m with
          | nil => simp
          | cons p m ih => simp only [List.map_cons, List.sum_cons, Function.comp_apply, ih]; ring
        simp only [List.map_cons, List.sum_cons, Function.comp_apply]
        rw [ih']; ring
    rw [this]; ring

theorem nonCircular_isSome {d : Nat} {f : String} {m : List (NExp K × K)} {prev next : K}
    (hk : NExp.var f ∈ m.map Prod.fst) : (nonCircular d f m prev next).isSome := by
  unfold nonCircular bumpKey
  have hk' : NExp.var f ∈ (m.map fun p => (p.1, -p.2)).map Prod.fst := by rw [List.map_map]; exact hk
  split_ifs <;> simp

end
end Model
