import Verif.Props.LinReg
import Verif.Lemmas.PacMean
import Mathlib.LinearAlgebra.LinearIndependent.Lemmas
import Mathlib.LinearAlgebra.Dimension.Constructions
import Mathlib.Data.Fin.SuccPred
import Mathlib.Data.Finset.Max

/-! C147: how many observations the numeric effects learned from others predict wrongly. -/
namespace Props
open Spec Model

namespace NumEffectsGeneral

section
variable {K : Type} [Field K] [LinearOrder K] [IsStrictOrderedRing K] [FloorRing K] {C : Type} [DecidableEq C]

/-- Affine functions that agree on rows agree on their affine combinations. -/
theorem agree_affine {rows : List (C → K)} {cs cs' : List K} {fs fs' cols : List C} {b b' : K}
    (h : ∀ r ∈ rows, affList cs fs b r = affList cs' fs' b' r) (hf : ∀ f ∈ fs, f ∈ cols) (hf' : ∀ f ∈ fs', f ∈ cols)
    {v : C → K} (hv : InAffine cols rows v) : affList cs fs b v = affList cs' fs' b' v := by
  obtain ⟨w, w1, w3, w4⟩ := hv
  have key : ∀ (cs : List K) (fs : List C) (b : K), (∀ f ∈ fs, f ∈ cols) →
      affList cs fs b v = (List.zipWith (fun k (r : C → K) => k * affList cs fs b r) w rows).sum := by
    intro cs fs b hfs
    have h1 := comb_affine (C := Option C) (w := w) (rows := rows.map fun r => fun o => match o with
      | none => affList cs fs b r
      | some c => r c) (by simpa using w1) (c := none) (cs := cs) (feats := fs.map some) (b := b) (by
        intro r hr
        obtain ⟨r0, _, rfl⟩ := List.mem_map.mp hr
        rw [List.zipWith_map_right]
        rfl)
    rw [List.zipWith_map_right] at h1
    rw [h1, w3, mul_one, List.zipWith_map_right]
    unfold affList
    congr 2
    apply zipWith_congr_mem
    intro f hf
    rw [w4 f (hfs f hf), List.zipWith_map_right]
  rw [key cs fs b hf, key cs' fs' b' hf']
  congr 1
  clear key w1 w3 w4
  induction rows generalizing w with
  | nil => simp
  | cons r rows ih =>
    cases w with
    | nil => rfl
    | cons k w =>
      simp only [List.zipWith_cons_cons]
      rw [h r List.mem_cons_self, ih fun r hr => h r (List.mem_cons_of_mem _ hr)]

/-- **C147 (affine combinations).** As C58, in every state whose columns are an affine combination of the observed ones, in their convex hull
or not. -/
theorem C147_exact_on_affine {R : RegLib K C} (hR : RegContract R) {d : Nat} (hd : d ≤ 10) {colExp : C → NExp K} {fname : C → String}
    {relevant : Option (List C)} {prevCols nextCols : List C} {obs : List ((C → K) × (C → K))}
    (hs : ColumnSetup colExp fname prevCols nextCols)
    (hp : CoefficientsPrintable R d (usedCols relevant prevCols) (usedCols relevant nextCols) obs)
    (hrel : relevant ≠ some []) (hobs : obs ≠ []) {effs : List (NEffect K)}
    (h : constructEffects R d false colExp fname relevant prevCols nextCols obs = .ok effs)
    (hsd : ∀ e ∈ effs, e.op ≠ .scaleDown)
    {f : C} (hf : f ∈ usedCols relevant nextCols)
    (truth : Affine K C) (ht : ∀ c ∈ truth.cols, c ∈ usedCols relevant prevCols) (hobsT : ∀ o ∈ obs, o.2 f = truth.value o.1)
    (x : String → K) (hx : InAffine (usedCols relevant prevCols) (obs.map Prod.fst) (colVal colExp x)) :
    applyNumeric effs x (fname f) = truth.value (colVal colExp x) := by
  obtain ⟨G, rfl, hG⟩ := effects_fit hR hd hs hp hrel hobs h hsd
  have hnm : ∀ c ∈ keptCols relevant nextCols, c ∈ nextCols := fun c hc => keptCols_mem hc
  rw [apply_filterMap (keptCols_nodup hs.nextNodup) (fun f hf => (hG f hf).target)
    (fun a ha b hb => hs.nameInj a (hnm a ha) b (hnm b hb)) hf]
  obtain ⟨cs, fs, b, hfs, hdata, hval⟩ := (hG f hf).fits
  rw [hval x, affine_value_eq]
  refine agree_affine ?_ hfs ht hx
  intro r hr
  obtain ⟨o, ho, rfl⟩ := List.mem_map.mp hr
  rw [← affine_value_eq, ← hobsT o ho]
  exact (hdata (o.1, o.2 f) (List.mem_map.mpr ⟨o, ho, rfl⟩)).symm

/-- A row with a one in front. -/
def lift1 (cols : List C) (v : C → K) : K × (Fin cols.length → K) := (1, fun i => v (cols.get i))

theorem comb_of_span {cols : List C} {rows : List (C → K)} {u : K × (Fin cols.length → K)}
    (h : u ∈ Submodule.span K (lift1 cols '' {r | r ∈ rows})) :
    ∃ w : List K, w.length = rows.length ∧ w.sum = u.1 ∧ ∀ i, u.2 i = (List.zipWith (fun k (r : C → K) => k * r (cols.get i)) w rows).sum := by
  induction rows generalizing u with
  | nil =>
    have : u = 0 := by simpa using h
    subst this
    exact ⟨[], rfl, rfl, fun _ => rfl⟩
  | cons r rs ih =>
    have hset : lift1 cols '' {r' | r' ∈ r :: rs} = insert (lift1 cols r) (lift1 cols '' {r' | r' ∈ rs}) := by
      ext z
      constructor
      · rintro ⟨a, ha, rfl⟩
        rcases List.mem_cons.mp ha with rfl | ha
        · exact Set.mem_insert _ _
        · exact Set.mem_insert_of_mem _ ⟨a, ha, rfl⟩
      · rintro (rfl | ⟨a, ha, rfl⟩)
        · exact ⟨r, List.mem_cons_self, rfl⟩
        · exact ⟨a, List.mem_cons_of_mem _ ha, rfl⟩
    rw [hset, Submodule.mem_span_insert] at h
    obtain ⟨k, z, hz, rfl⟩ := h
    obtain ⟨w, h1, h2, h3⟩ := ih hz
    refine ⟨k :: w, by simp [h1], by simp [h2, lift1], fun i => ?_⟩
    simp [h3 i, lift1]

theorem inAffine_of_span {cols : List C} {rows : List (C → K)} {v : C → K}
    (h : lift1 cols v ∈ Submodule.span K (lift1 cols '' {r | r ∈ rows})) : InAffine cols rows v := by
  obtain ⟨w, h1, h2, h3⟩ := comb_of_span h
  refine ⟨w, h1, h2, fun c hc => ?_⟩
  obtain ⟨i, rfl⟩ := List.get_of_mem hc
  exact h3 i

/-- Rows none of which is a combination of earlier ones. -/
theorem count_le {cols : List C} {ι : Type} [LinearOrder ι] {row : ι → C → K} {bad : Finset ι}
    (h : ∀ i ∈ bad, lift1 cols (row i) ∉ Submodule.span K ((fun j => lift1 cols (row j)) '' {j | j < i})) : bad.card ≤ cols.length + 1 := by
  have hind : LinearIndepOn K (fun j => lift1 cols (row j)) (bad : Set ι) := by
    induction bad using Finset.induction_on_max with
    | empty => simp
    | insert a s hlt ih =>
      rw [Finset.coe_insert]
      refine LinearIndepOn.insert (ih fun i hi => h i (Finset.mem_insert_of_mem hi)) fun hmem => ?_
      refine h a (Finset.mem_insert_self _ _) (Submodule.span_mono (Set.image_mono fun j hj => ?_) hmem)
      exact hlt j hj
  have := LinearIndependent.fintype_card_le_finrank hind
  simpa [add_comm] using this

/-- The learned effects give a wrong value to some function. -/
def Mispredicts (fname : C → String) (used : List C) (effs : List (NEffect K)) (x : String → K) (next : C → K) : Prop :=
  ∃ f ∈ used, applyNumeric effs x (fname f) ≠ next f

variable {R : RegLib K C} {d : Nat} {colExp : C → NExp K} {fname : C → String} {relevant : Option (List C)} {prevCols nextCols : List C}
  {truth : C → Affine K C}

theorem not_span (hR : RegContract R) (hd : d ≤ 10) (hs : ColumnSetup colExp fname prevCols nextCols) (hrel : relevant ≠ some [])
    (ht : ∀ f ∈ usedCols relevant nextCols, ∀ c ∈ (truth f).cols, c ∈ usedCols relevant prevCols)
    {obs : List ((C → K) × (C → K))} (hobsT : ∀ o ∈ obs, ∀ f ∈ usedCols relevant nextCols, o.2 f = (truth f).value o.1)
    (hp : CoefficientsPrintable R d (usedCols relevant prevCols) (usedCols relevant nextCols) obs) {effs : List (NEffect K)}
    (h : constructEffects R d false colExp fname relevant prevCols nextCols obs = .ok effs) (hsd : ∀ e ∈ effs, e.op ≠ .scaleDown)
    {x : String → K} {next : C → K} (hnext : ∀ f ∈ usedCols relevant nextCols, next f = (truth f).value (colVal colExp x))
    (hbad : Mispredicts fname (usedCols relevant nextCols) effs x next) :
    lift1 (usedCols relevant prevCols) (colVal colExp x) ∉ Submodule.span K (lift1 (usedCols relevant prevCols) '' {r | r ∈ obs.map Prod.fst}) := by
  intro hmem
  have ha := inAffine_of_span hmem
  have hobs : obs ≠ [] := by
    rintro rfl
    obtain ⟨w, h1, h2, _⟩ := ha
    simp at h1; subst h1; simp at h2
  obtain ⟨f, hf, hne⟩ := hbad
  exact hne ((C147_exact_on_affine hR hd hs hp hrel hobs h hsd hf (truth f) (ht f hf) (fun o ho => hobsT o ho f hf) x ha).trans (hnext f hf).symm)

/-- **C147 (leave one out).** If the next values are affine in the used columns then, of any number of observations, the effects learned
from the others predict at most as many wrongly as there are used columns, plus one. -/
theorem C147_leave_one_out (hR : RegContract R) (hd : d ≤ 10) (hs : ColumnSetup colExp fname prevCols nextCols) (hrel : relevant ≠ some [])
    (ht : ∀ f ∈ usedCols relevant nextCols, ∀ c ∈ (truth f).cols, c ∈ usedCols relevant prevCols)
    {n : ℕ} {o : Fin (n + 1) → (C → K) × (C → K)} (hobsT : ∀ i, ∀ f ∈ usedCols relevant nextCols, (o i).2 f = (truth f).value (o i).1)
    (hp : ∀ i : Fin (n + 1), CoefficientsPrintable R d (usedCols relevant prevCols) (usedCols relevant nextCols) (List.ofFn fun j => o (i.succAbove j)))
    {effs : Fin (n + 1) → List (NEffect K)}
    (h : ∀ i, constructEffects R d false colExp fname relevant prevCols nextCols (List.ofFn fun j => o (i.succAbove j)) = .ok (effs i))
    (hsd : ∀ i, ∀ e ∈ effs i, e.op ≠ .scaleDown) {x : Fin (n + 1) → String → K} (hx : ∀ i, colVal colExp (x i) = (o i).1)
    {bad : Finset (Fin (n + 1))} (hbad : ∀ i ∈ bad, Mispredicts fname (usedCols relevant nextCols) (effs i) (x i) (o i).2) :
    bad.card ≤ (usedCols relevant prevCols).length + 1 := by
  refine count_le (row := fun i => (o i).1) fun i hi hmem => ?_
  refine not_span hR hd hs hrel ht (fun q hq f hf => ?_) (hp i) (h i) (hsd i) (fun f hf => by rw [hx i]; exact hobsT i f hf) (hbad i hi) ?_
  · obtain ⟨j, rfl⟩ := List.mem_ofFn.mp hq
    exact hobsT _ f hf
  · rw [hx i]
    refine Submodule.span_mono ?_ hmem
    rintro z ⟨j, hj, rfl⟩
    obtain ⟨k, rfl⟩ := Fin.exists_succAbove_eq (ne_of_lt hj)
    exact ⟨_, List.mem_map.mpr ⟨_, List.mem_ofFn.mpr ⟨k, rfl⟩, rfl⟩, rfl⟩

/-- **C147 (mistakes).** If the effects are learned again after each observation, at most as many of an endless sequence of observations are
predicted wrongly by the effects learned from the earlier ones as there are used columns, plus one. -/
theorem C147_mistake_bound (hR : RegContract R) (hd : d ≤ 10) (hs : ColumnSetup colExp fname prevCols nextCols) (hrel : relevant ≠ some [])
    (ht : ∀ f ∈ usedCols relevant nextCols, ∀ c ∈ (truth f).cols, c ∈ usedCols relevant prevCols)
    {o : ℕ → (C → K) × (C → K)} (hobsT : ∀ i, ∀ f ∈ usedCols relevant nextCols, (o i).2 f = (truth f).value (o i).1)
    (hp : ∀ i, CoefficientsPrintable R d (usedCols relevant prevCols) (usedCols relevant nextCols) ((List.range i).map o))
    {effs : ℕ → List (NEffect K)}
    (h : ∀ i, constructEffects R d false colExp fname relevant prevCols nextCols ((List.range i).map o) = .ok (effs i))
    (hsd : ∀ i, ∀ e ∈ effs i, e.op ≠ .scaleDown) {x : ℕ → String → K} (hx : ∀ i, colVal colExp (x i) = (o i).1)
    {bad : Finset ℕ} (hbad : ∀ i ∈ bad, Mispredicts fname (usedCols relevant nextCols) (effs i) (x i) (o i).2) :
    bad.card ≤ (usedCols relevant prevCols).length + 1 := by
  refine count_le (row := fun i => (o i).1) fun i hi hmem => ?_
  refine not_span hR hd hs hrel ht (fun q hq f hf => ?_) (hp i) (h i) (hsd i) (fun f hf => by rw [hx i]; exact hobsT i f hf) (hbad i hi) ?_
  · obtain ⟨j, _, rfl⟩ := List.mem_map.mp hq
    exact hobsT _ f hf
  · rw [hx i]
    refine Submodule.span_mono ?_ hmem
    rintro z ⟨j, hj, rfl⟩
    exact ⟨_, List.mem_map.mpr ⟨_, List.mem_map.mpr ⟨j, List.mem_range.mpr hj, rfl⟩, rfl⟩, rfl⟩

/-- **C147 (random observations).** Observations are drawn independently from any distribution (for which being wrong is an event). The effects
learned from `m` of them predict a further one wrongly with probability at most the number of used columns plus one, divided by `m + 1`. -/
theorem C147_mean_error (hR : RegContract R) (hd : d ≤ 10) (hs : ColumnSetup colExp fname prevCols nextCols) (hrel : relevant ≠ some [])
    (ht : ∀ f ∈ usedCols relevant nextCols, ∀ c ∈ (truth f).cols, c ∈ usedCols relevant prevCols)
    {Ω : Type*} [MeasurableSpace Ω] {μ : MeasureTheory.Measure Ω} [MeasureTheory.IsProbabilityMeasure μ]
    {o : Ω → (C → K) × (C → K)} (hobsT : ∀ ω, ∀ f ∈ usedCols relevant nextCols, (o ω).2 f = (truth f).value (o ω).1) {m : ℕ}
    (hp : ∀ g : Fin m → Ω, CoefficientsPrintable R d (usedCols relevant prevCols) (usedCols relevant nextCols) (List.ofFn fun j => o (g j)))
    {effs : (Fin m → Ω) → List (NEffect K)}
    (h : ∀ g, constructEffects R d false colExp fname relevant prevCols nextCols (List.ofFn fun j => o (g j)) = .ok (effs g))
    (hsd : ∀ g, ∀ e ∈ effs g, e.op ≠ .scaleDown) {x : Ω → String → K} (hx : ∀ ω, colVal colExp (x ω) = (o ω).1)
    (hmeas : MeasurableSet {q : Ω × (Fin m → Ω) | Mispredicts fname (usedCols relevant nextCols) (effs q.2) (x q.1) (o q.1).2}) :
    (μ.prod (MeasureTheory.Measure.pi fun _ : Fin m => μ)) {q | Mispredicts fname (usedCols relevant nextCols) (effs q.2) (x q.1) (o q.1).2} ≤
      ((usedCols relevant prevCols).length + 1) / (m + 1) := by
  have := Pac.mean_bound (μ := μ) (bad := fun g ω => Mispredicts fname (usedCols relevant nextCols) (effs g) (x ω) (o ω).2)
    (B := (usedCols relevant prevCols).length + 1) hmeas fun z _ hb =>
    C147_leave_one_out hR hd hs hrel ht (o := fun i => o (z i)) (fun i => hobsT (z i)) (fun i => hp fun j => z (i.succAbove j))
      (fun i => h fun j => z (i.succAbove j)) (fun i => hsd fun j => z (i.succAbove j)) (fun i => hx (z i)) hb
  exact_mod_cast this

end

/-! ### Cases -/

/-- C147 applies outside the hull: `f = 5`, `g = 1`. -/
example : applyNumeric [⟨.increase, "(f)", .add (.var "(g)") (.num (-1))⟩] (fun n => if n = "(f)" then (5 : ℚ) else 1) "(f)" = 5 :=
  (C147_exact_on_affine (guess_contract _) (by norm_num) tri_columns (relevant := none) sum_printable (by simp) (by decide +kernel) sum_run2
    (by decide) (f := true) (by decide) ⟨[true, false], fun _ => 1, -1⟩ (by decide) (by decide +kernel) _
    ⟨[-4, 5, 0, 0], by decide, by decide +kernel, by decide +kernel⟩).trans (by decide +kernel)

/-- Three observations of `f' = f + 1`. -/
def incObs (i : Fin 3) : (Unit → ℚ) × (Unit → ℚ) := (fun _ => i.val, fun _ => i.val + 1)

noncomputable def incReg : RegLib ℚ Unit := guessLib [([()], [1], 1)]

theorem inc_printable (i : Fin 3) : CoefficientsPrintable incReg 4 [()] [()] (List.ofFn fun j => incObs (i.succAbove j)) := by
  intro f _
  have hf : regFeats 4 [()] [()] (List.ofFn fun j => incObs (i.succAbove j)) = [()] := by revert i; decide +kernel
  have e : incReg.solve [()] (regLabels [()] [()] (List.ofFn fun j => incObs (i.succAbove j)) f) = (([1], 1), true) := by
    clear hf; cases f; revert i; decide +kernel
  rw [hf, e]
  have h1 : Printable 4 (1 : ℚ) := by exact_mod_cast printable_int 1
  refine ⟨?_, ?_⟩
  · intro c hc
    simp only [List.cons_append, List.nil_append, List.mem_cons, List.not_mem_nil, or_false, or_self] at hc
    rcases hc with rfl <;> assumption
  · intro i hi hi' hf'
    have : i = 0 := by simpa using hi
    subst this
    have h0 : Printable 4 (0 : ℚ) := Or.inl rfl
    simpa using h0

/-- The hypotheses of `C147_leave_one_out` are met; none of the three is predicted wrongly. -/
example : RegContract incReg ∧ ColumnSetup (fun _ : Unit => (.var "(f)" : NExp ℚ)) (fun _ => "(f)") [()] [()] ∧
    (∀ i, ∀ f ∈ usedCols none [()], (incObs i).2 f = (⟨[()], fun _ => 1, 1⟩ : Affine ℚ Unit).value (incObs i).1) ∧
    (∀ i : Fin 3, constructEffects incReg 4 false (fun _ => .var "(f)") (fun _ => "(f)") none [()] [()] (List.ofFn fun j => incObs (i.succAbove j)) =
      .ok [⟨.increase, "(f)", .num 1⟩]) ∧
    ∀ i, colVal (fun _ => .var "(f)") (fun _ => ((i : Fin 3).val : ℚ)) = (incObs i).1 := by
  refine ⟨guess_contract _, ⟨by decide, by decide, by decide +kernel, by decide +kernel, by decide +kernel, by decide +kernel⟩, ?_, ?_, fun i => rfl⟩
  · decide +kernel
  · decide +kernel

/-- As `incReg`, and constants for samples that do not vary. -/
noncomputable def incReg' : RegLib ℚ Unit := guessLib [([()], [1], 1), ([], [], 1), ([], [], 2), ([], [], 3)]

/-- Two observations drawn from the three, in any order, with repetition: the hypotheses of `C147_mean_error` are met. -/
example : RegContract incReg' ∧ (∀ g : Fin 2 → Fin 3, CoefficientsPrintable incReg' 4 [()] [()] (List.ofFn fun j => incObs (g j))) ∧
    (∀ g : Fin 2 → Fin 3, ∃ effs, constructEffects incReg' 4 false (fun _ => .var "(f)") (fun _ => "(f)") none [()] [()] (List.ofFn fun j => incObs (g j)) =
      .ok effs ∧ ∀ e ∈ effs, e.op ≠ .scaleDown) ∧
    ∀ S : Set (Fin 3 × (Fin 2 → Fin 3)), @MeasurableSet _ (@Prod.instMeasurableSpace _ _ ⊤ (@MeasurableSpace.pi _ _ fun _ => ⊤)) S := by
  refine ⟨guess_contract _, fun g f _ => ?_, fun g => ?_, fun S => ?_⟩
  · have hP : ∀ n : Int, Printable 4 (n : ℚ) := printable_int
    have h0 : Printable 4 (0 : ℚ) := Or.inl rfl
    have h1 : Printable 4 (1 : ℚ) := by exact_mod_cast hP 1
    have h2 : Printable 4 (2 : ℚ) := by exact_mod_cast hP 2
    have h3 : Printable 4 (3 : ℚ) := by exact_mod_cast hP 3
    cases f
    have e : ∀ g : Fin 2 → Fin 3, (incReg'.solve (regFeats 4 [()] [()] (List.ofFn fun j => incObs (g j))) (regLabels [()] [()] (List.ofFn fun j => incObs (g j)) ())).1 ∈
        [([1], 1), ([], 1), ([], 2), ([], (3 : ℚ))] := by decide +kernel
    have hg := e g
    generalize incReg'.solve _ _ = sol at hg
    obtain ⟨⟨cs, b⟩, ok⟩ := sol
    simp only [List.mem_cons, Prod.mk.injEq, List.not_mem_nil, or_false] at hg
    rcases hg with ⟨rfl, rfl⟩ | ⟨rfl, rfl⟩ | ⟨rfl, rfl⟩ | ⟨rfl, rfl⟩
    · refine ⟨by simpa using h1, fun i hi hi' _ => ?_⟩
      have : i = 0 := by simpa using hi'
      subst this; simpa using h0
    all_goals exact ⟨by simpa using by assumption, fun i _ hi' _ => by simp at hi'⟩
  · have : ∀ g : Fin 2 → Fin 3, (constructEffects incReg' 4 false (fun _ => .var "(f)") (fun _ => "(f)") none [()] [()] (List.ofFn fun j => incObs (g j))) ∈
        [.ok [⟨.increase, "(f)", .num 1⟩], .ok [⟨.assign, "(f)", .num 1⟩], .ok [⟨.assign, "(f)", .num 2⟩], .ok [⟨.assign, "(f)", .num (3 : ℚ)⟩]] := by decide +kernel
    have hg := this g
    simp only [List.mem_cons, List.not_mem_nil, or_false] at hg
    rcases hg with h | h | h | h <;> exact ⟨_, h, by decide⟩
  · letI : MeasurableSpace (Fin 3) := ⊤
    exact (Set.to_countable S).measurableSet
end NumEffectsGeneral
end Props
