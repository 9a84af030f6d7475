import Verif.Props.Plots
import Mathlib.Tactic.NormNum

/-! C134: the plots of the offline experiments, and the collectors with them. -/
namespace Props
namespace SolvingPlots
open Model Model.Results Model.OnlineResults Model.Plots

/-- The rows of an algorithm with a size. -/
def rowsOf (rows : List Solved) (a : Alg) (n : Nat) : List Solved := rows.filter fun r => decide (r.alg = a ∧ r.size = n)

theorem values_eq (rows : List Solved) (a : Alg) (n : Nat) : values rows a n = (rowsOf rows a n).map Solved.ok := rfl

theorem curve_sizes (rows : List Solved) (a : Alg) : ((curve rows a).map Point.size).Pairwise (· < ·) ∧
    ∀ n, n ∈ (curve rows a).map Point.size ↔ ∃ r ∈ rows, r.alg = a ∧ r.size = n := by
  have e : (curve rows a).map Point.size = ((rows.filter fun r => decide (r.alg = a)).map Solved.size).dedup.insertionSort (· ≤ ·) := by
    unfold curve
    rw [List.map_map]
    exact List.map_id _
  rw [e]
  constructor
  · have h1 : (((rows.filter fun r => decide (r.alg = a)).map Solved.size).dedup.insertionSort (· ≤ ·)).Pairwise (· ≤ ·) := List.pairwise_insertionSort _ _
    have h2 := (List.perm_insertionSort (· ≤ ·) ((rows.filter fun r => decide (r.alg = a)).map Solved.size).dedup).nodup_iff.mpr (List.nodup_dedup _)
    exact (h1.and h2).imp fun h => lt_of_le_of_ne h.1 h.2
  · intro n
    rw [List.mem_insertionSort, List.mem_dedup, List.mem_map]
    constructor
    · rintro ⟨r, hr, rfl⟩
      obtain ⟨h1, h2⟩ := List.mem_filter.mp hr
      exact ⟨r, h1, by simpa using h2, rfl⟩
    · rintro ⟨r, hr, ha, rfl⟩
      exact ⟨r, List.mem_filter.mpr ⟨hr, by simpa using ha⟩, rfl⟩

theorem curve_point {rows : List Solved} {a : Alg} {p : Point} (hp : p ∈ curve rows a) :
    p.avg = mean (values rows a p.size) ∧ p.var = variance (values rows a p.size) ∧ values rows a p.size ≠ [] := by
  have hs := (curve_sizes rows a).2 p.size
  have hm : p.size ∈ (curve rows a).map Point.size := List.mem_map_of_mem hp
  unfold curve at hp
  obtain ⟨n, _, rfl⟩ := List.mem_map.mp hp
  refine ⟨rfl, rfl, ?_⟩
  obtain ⟨r, hr, h1, h2⟩ := hs.mp hm
  rw [values_eq]
  intro h
  have : r ∈ rowsOf rows a n := List.mem_filter.mpr ⟨hr, by simpa using ⟨h1, h2⟩⟩
  rw [List.map_eq_nil_iff.mp h] at this
  simp at this

/-- **C134, points.** A curve has one point for every size with a row of the algorithm, with ascending sizes; its height is the mean percentage of these rows. The order
of the rows does not matter. -/
theorem C134_points (rows : List Solved) (a : Alg) :
    ((curve rows a).map Point.size).Pairwise (· < ·) ∧
    (∀ n, (∃ p ∈ curve rows a, p.size = n) ↔ ∃ r ∈ rows, r.alg = a ∧ r.size = n) ∧
    (∀ p ∈ curve rows a, p.avg = ((rowsOf rows a p.size).map Solved.ok).sum / ((rowsOf rows a p.size).length : ℚ)) ∧
    ∀ rows', rows.Perm rows' → curve rows' a = curve rows a := by
  refine ⟨(curve_sizes rows a).1, fun n => ?_, fun p hp => ?_, fun rows' h => ?_⟩
  · rw [← (curve_sizes rows a).2 n, List.mem_map]
  · rw [(curve_point hp).1, values_eq]
    unfold mean
    rw [List.length_map]
  · have hs : (curve rows' a).map Point.size = (curve rows a).map Point.size := by
      refine List.Perm.eq_of_pairwise (le := (· < ·)) (fun a b _ _ h1 h2 => absurd (h1.trans h2) (lt_irrefl _)) (curve_sizes _ _).1 (curve_sizes _ _).1 ?_
      refine (List.perm_ext_iff_of_nodup ((curve_sizes _ _).1.imp ne_of_lt) ((curve_sizes _ _).1.imp ne_of_lt)).mpr fun n => ?_
      rw [(curve_sizes _ _).2, (curve_sizes _ _).2]
      exact ⟨fun ⟨o, ho, e⟩ => ⟨o, h.mem_iff.mpr ho, e⟩, fun ⟨o, ho, e⟩ => ⟨o, h.mem_iff.mp ho, e⟩⟩
    have hv : ∀ n, (values rows a n).Perm (values rows' a n) := fun n => (h.filter _).map _
    have hm : ∀ {l l' : List ℚ}, l.Perm l' → mean l = mean l' := by
      intro l l' h
      unfold mean
      rw [h.sum_eq, h.length_eq]
    have hvar : ∀ {l l' : List ℚ}, l.Perm l' → variance l = variance l' := by
      intro l l' h
      unfold variance
      rw [hm h, h.length_eq, (h.map fun x => (x - mean l') ^ 2).sum_eq]
    have hc : ∀ rs, curve rs a = ((curve rs a).map Point.size).map fun n => ⟨n, mean (values rs a n), variance (values rs a n)⟩ := by
      intro rs
      unfold curve
      rw [List.map_map, List.map_map]
      rfl
    rw [hc rows', hc rows, hs]
    refine List.map_congr_left fun n _ => ?_
    rw [hm (hv n), hvar (hv n)]

theorem sum_range {l : List ℚ} {lo hi : ℚ} (h : ∀ x ∈ l, lo ≤ x ∧ x ≤ hi) : lo * l.length ≤ l.sum ∧ l.sum ≤ hi * l.length := by
  induction l with
  | nil => simp
  | cons x l ih =>
    obtain ⟨h1, h2⟩ := ih fun y hy => h y (List.mem_cons_of_mem _ hy)
    obtain ⟨h3, h4⟩ := h x List.mem_cons_self
    rw [List.sum_cons, List.length_cons]
    push_cast
    constructor <;> linarith

theorem mean_range {l : List ℚ} (hl : l ≠ []) {lo hi : ℚ} (h : ∀ x ∈ l, lo ≤ x ∧ x ≤ hi) : lo ≤ mean l ∧ mean l ≤ hi := by
  have hp : (0 : ℚ) < l.length := by exact_mod_cast List.length_pos_iff.mpr hl
  unfold mean
  rw [le_div_iff₀ hp, div_le_iff₀ hp]
  exact sum_range h

/-- **C134, band.** If all percentages are between 0 and 100, so is every point, and it lies in its band, which is in this range too; there is no band exactly for a single row. -/
theorem C134_band {rows : List Solved} (h : ∀ r ∈ rows, 0 ≤ r.ok ∧ r.ok ≤ 100) {a : Alg} {p : Point} (hp : p ∈ curve rows a) :
    0 ≤ p.avg ∧ p.avg ≤ 100 ∧ (∀ l u, p.band = some (l, u) → 0 ≤ l ∧ l ≤ (p.avg : ℝ) ∧ (p.avg : ℝ) ≤ u ∧ u ≤ 100) ∧
    (p.band = none ↔ (rowsOf rows a p.size).length = 1) := by
  obtain ⟨h1, h2, h3⟩ := curve_point hp
  have hr := mean_range h3 (lo := 0) (hi := 100) fun x hx => by
    obtain ⟨r, hr, rfl⟩ := List.mem_map.mp hx
    exact h r (List.mem_filter.mp hr).1
  rw [← h1] at hr
  refine ⟨hr.1, hr.2, ?_, ?_⟩
  · intro l u hb
    unfold Point.band at hb
    cases hv : p.var with
    | none => rw [hv] at hb; cases hb
    | some v =>
      rw [hv] at hb
      cases hb
      have hs := Real.sqrt_nonneg (v : ℝ)
      have ha0 : (0 : ℝ) ≤ (p.avg : ℝ) := by exact_mod_cast hr.1
      have ha1 : (p.avg : ℝ) ≤ 100 := by exact_mod_cast hr.2
      refine ⟨le_max_left _ _, max_le ha0 ?_, ?_, max_le (by norm_num) (min_le_left _ _)⟩
      · exact (min_le_right _ _).trans (by linarith)
      · exact le_max_of_le_right (le_min ha1 (by linarith))
  · unfold Point.band
    rw [Option.map_eq_none_iff, h2]
    unfold variance
    rw [values_eq, List.length_map]
    have : 0 < (rowsOf rows a p.size).length := by
      rw [List.length_pos_iff]
      intro e
      rw [values_eq, e] at h3
      exact h3 rfl
    split <;> rename_i hlt
    · simpa using by omega
    · simpa using by omega

/-! ### Repeated rows -/

theorem sum_repeat (k : Nat) (l : List ℚ) : ((List.replicate k l).flatten).sum = k * l.sum := by
  induction k with
  | zero => simp
  | succ k ih => rw [List.replicate_succ, List.flatten_cons, List.sum_append, ih]; push_cast; ring

theorem length_repeat {α : Type} (k : Nat) (l : List α) : ((List.replicate k l).flatten).length = k * l.length := by simp

theorem mean_repeat {k : Nat} (hk : 0 < k) (l : List ℚ) : mean ((List.replicate k l).flatten) = mean l := by
  unfold mean
  rw [sum_repeat, length_repeat]
  have : (k : ℚ) ≠ 0 := by exact_mod_cast hk.ne'
  push_cast
  exact mul_div_mul_left _ _ this

/-- **C134, triplets.** The collector reads the rows over triplets once per iteration (C104); repeating all values does not move a point, but makes its variance, and
with it the band, smaller. -/
theorem C134_repeated {k : Nat} (hk : 2 ≤ k) {l : List ℚ} {v : ℚ} (hv : variance l = some v) :
    mean ((List.replicate k l).flatten) = mean l ∧
    ∃ w, variance ((List.replicate k l).flatten) = some w ∧ w = v * (k * ((l.length : ℚ) - 1) / (k * l.length - 1)) ∧ 0 ≤ v ∧ w ≤ v ∧ (0 < v → w < v) := by
  have hm := mean_repeat (k := k) (by omega) l
  refine ⟨hm, ?_⟩
  unfold variance at hv
  split at hv
  · cases hv
  · rename_i hl
    cases hv
    have h1 : (1 : ℚ) ≤ (l.length : ℚ) - 1 := by
      have : (2 : ℚ) ≤ l.length := by exact_mod_cast (by omega : 2 ≤ l.length)
      linarith
    have hk' : (2 : ℚ) ≤ k := by exact_mod_cast hk
    have hn : (0 : ℚ) ≤ (l.map fun x => (x - mean l) ^ 2).sum := List.sum_nonneg fun x hx => by
      obtain ⟨y, _, rfl⟩ := List.mem_map.mp hx
      positivity
    have hd : (0 : ℚ) < (k : ℚ) * l.length - 1 := by nlinarith
    have hw : variance ((List.replicate k l).flatten) =
        some ((l.map fun x => (x - mean l) ^ 2).sum / ((l.length : ℚ) - 1) * (k * ((l.length : ℚ) - 1) / (k * l.length - 1))) := by
      unfold variance
      rw [if_neg (by rw [length_repeat]; nlinarith), hm, List.map_flatten, List.map_replicate, sum_repeat, length_repeat]
      congr 1
      have : (l.length : ℚ) - 1 ≠ 0 := by linarith
      push_cast
      field_simp
    have hc : (k : ℚ) * ((l.length : ℚ) - 1) / (k * l.length - 1) < 1 := by
      rw [div_lt_one hd]
      linarith
    have hv0 : 0 ≤ (l.map fun x => (x - mean l) ^ 2).sum / ((l.length : ℚ) - 1) := div_nonneg hn (by linarith)
    refine ⟨_, hw, rfl, hv0, ?_, fun hpos => ?_⟩
    · exact mul_le_of_le_one_right hv0 hc.le
    · exact mul_lt_of_lt_one_right hpos hc

/-! ### Legends -/

theorem mem_unique {l : List Alg} {a : Alg} : a ∈ unique l ↔ a ∈ l := by simp [unique]

theorem nodup_unique (l : List Alg) : (unique l).Nodup := by
  unfold unique
  exact List.nodup_reverse.mpr (List.nodup_dedup _)

/-- The algorithms the numeric plots know. -/
def known : List Alg := [.numericSam, .naiveNsam, .planMiner]

theorem nsamText_ok {a : Alg} : (∃ t, nsamText a = .ok t) ↔ a ∈ known := by
  cases a <;> simp [nsamText, nsamLabel, known]

theorem nsamText_label {a : Alg} {t : String} : nsamText a = .ok t ↔ nsamLabel a = some t := by
  unfold nsamText
  cases nsamLabel a <;> simp

theorem mapM_ok {α β : Type} {f : α → Except Err β} : ∀ {l : List α}, (∃ r, l.mapM f = .ok r) ↔ ∀ a ∈ l, ∃ b, f a = .ok b := by
  intro l
  induction l with
  | nil => simp [pure, Except.pure]
  | cons a l ih =>
    rw [List.mapM_cons]
    simp only [Bind.bind, Except.bind, pure, Except.pure]
    cases h : f a with
    | error e => simp [h]
    | ok b =>
      simp only [List.mem_cons, forall_eq_or_imp, h]
      rw [← ih]
      cases h' : l.mapM f <;> simp

theorem mapM_text : ∀ {l : List Alg} {ts : List String}, l.mapM nsamText = .ok ts → ts.length = l.length ∧ ∀ p ∈ ts.zip l, nsamLabel p.2 = some p.1 := by
  intro l
  induction l with
  | nil => intro ts h; cases h; simp
  | cons a l ih =>
    intro ts h
    rw [List.mapM_cons] at h
    simp only [Bind.bind, Except.bind, pure, Except.pure] at h
    split at h
    · cases h
    · rename_i t ht
      split at h
      · cases h
      · rename_i ts' hts
        cases h
        obtain ⟨h1, h2⟩ := ih hts
        refine ⟨by simp [h1], ?_⟩
        simp only [List.zip_cons_cons, List.mem_cons, forall_eq_or_imp]
        exact ⟨nsamText_label.mp ht, h2⟩

/-- The algorithms in the rows, without the incremental one. -/
def shownAlgs (rows : List Solved) : Finset Alg := ((rows.map Solved.alg).filter fun a => decide (a ≠ .incrementalNsam)).toFinset

theorem shown_eq (rows : List Solved) (a : Alg) :
    a ∈ unique ((rows.filter fun r => decide (r.alg ≠ .incrementalNsam)).map Solved.alg) ↔ a ∈ shownAlgs rows := by
  rw [mem_unique]
  unfold shownAlgs
  simp only [List.mem_map, List.mem_filter, List.mem_toFinset, decide_eq_true_eq]
  constructor
  · rintro ⟨r, ⟨h1, h2⟩, rfl⟩
    exact ⟨⟨r, h1, rfl⟩, h2⟩
  · rintro ⟨⟨r, h1, rfl⟩, h2⟩
    exact ⟨r, ⟨h1, h2⟩, rfl⟩

theorem card_shown (rows : List Solved) :
    (unique ((rows.filter fun r => decide (r.alg ≠ .incrementalNsam)).map Solved.alg)).length = (shownAlgs rows).card := by
  rw [← List.toFinset_card_of_nodup (nodup_unique _)]
  congr 1
  ext a
  rw [List.mem_toFinset, shown_eq]

theorem handle_ok {l : List Alg} {i : Nat} : (∃ a, handle l i = .ok a) ↔ i < l.length := by
  unfold handle
  constructor
  · rintro ⟨a, h⟩
    split at h
    · rename_i h'
      exact (List.getElem?_eq_some_iff.mp h').1
    · cases h
  · intro h
    rw [List.getElem?_eq_getElem h]
    exact ⟨_, rfl⟩

theorem handle_mem {l : List Alg} {i : Nat} {a : Alg} (h : handle l i = .ok a) : l[i]? = some a := by
  unfold handle at h
  split at h
  · cases h; assumption
  · cases h


/-- **C134, numeric plot.** It is drawn exactly if the algorithms in the file, apart from the incremental one, are the three it knows; then every curve is in the legend,
once, with the label of its algorithm. -/
theorem C134_nsam (rows : List Solved) :
    ((∃ F, plotNsam rows = .ok F) ↔ shownAlgs rows = known.toFinset) ∧
    ∀ F, plotNsam rows = .ok F → (F.curves.map Prod.fst).Perm known ∧ (F.legend.map Prod.snd).Perm known ∧ ∀ p ∈ F.legend, nsamLabel p.2 = some p.1 := by
  set df := rows.filter fun r => decide (r.alg ≠ .incrementalNsam) with hdf
  set algs := unique (df.map Solved.alg) with halgs
  have hcard : algs.length = (shownAlgs rows).card := card_shown rows
  have hmem : ∀ a, a ∈ algs ↔ a ∈ shownAlgs rows := shown_eq rows
  have hnd : algs.Nodup := nodup_unique _
  have hne : df = [] → algs = [] := fun h => by rw [halgs, h]; rfl
  have hplot : plotNsam rows = if df = [] then .error .valueError else
      (algs.mapM nsamText).bind fun _ => ([0, 2, 1].mapM (handle algs)).bind fun hs => (hs.mapM nsamText).bind fun ts =>
        .ok ⟨algs.map fun a => (a, curve df a), ts.zip hs⟩ := rfl
  have hknown : (∀ a ∈ algs, a ∈ known) → 3 ≤ algs.length → algs.Perm known := by
    intro h1 h2
    exact (List.subperm_of_subset hnd h1).perm_of_length_le (by simpa [known] using h2)
  -- what a result means
  have hres : ∀ F, plotNsam rows = .ok F → (∀ a ∈ algs, a ∈ known) ∧ 3 ≤ algs.length ∧ F.curves = algs.map (fun a => (a, curve df a)) ∧
      ∃ x y z, algs[0]? = some x ∧ algs[2]? = some y ∧ algs[1]? = some z ∧ F.legend.map Prod.snd = [x, y, z] ∧ ∀ p ∈ F.legend, nsamLabel p.2 = some p.1 := by
    intro F hF
    rw [hplot] at hF
    split at hF
    · cases hF
    · cases h1 : algs.mapM nsamText with
      | error e => rw [h1] at hF; cases hF
      | ok r =>
        rw [h1] at hF
        cases h2 : [0, 2, 1].mapM (handle algs) with
        | error e => rw [h2] at hF; cases hF
        | ok hs =>
          rw [h2] at hF
          cases h3 : hs.mapM nsamText with
          | error e => simp only [Except.bind] at hF; rw [h3] at hF; cases hF
          | ok ts =>
            simp only [Except.bind] at hF
            rw [h3] at hF
            cases hF
            obtain ⟨hlen, hlab⟩ := mapM_text h3
            have hk := fun a ha => nsamText_ok.mp (mapM_ok.mp ⟨_, h1⟩ a ha)
            have hh := mapM_ok.mp ⟨_, h2⟩
            have h3' : 2 < algs.length := handle_ok.mp (hh 2 (by simp))
            obtain ⟨x, hx⟩ := hh 0 (by simp)
            obtain ⟨y, hy⟩ := hh 2 (by simp)
            obtain ⟨z, hz⟩ := hh 1 (by simp)
            have hhs : hs = [x, y, z] := by
              simp only [List.mapM_cons, List.mapM_nil, hx, hy, hz, Bind.bind, Except.bind, pure, Except.pure] at h2
              cases h2
              rfl
            subst hhs
            refine ⟨hk, h3', rfl, x, y, z, handle_mem hx, handle_mem hy, handle_mem hz, ?_, hlab⟩
            exact List.map_snd_zip (by rw [hlen])
  constructor
  · constructor
    · rintro ⟨F, hF⟩
      obtain ⟨h1, h2, _⟩ := hres F hF
      have hp := hknown h1 h2
      ext a
      rw [← hmem, hp.mem_iff, List.mem_toFinset]
    · intro h
      have hk : ∀ a ∈ algs, a ∈ known := fun a ha => by rw [hmem, h] at ha; exact List.mem_toFinset.mp ha
      have hl : algs.length = 3 := by rw [hcard, h]; rfl
      have hdfne : df ≠ [] := fun e => by rw [hne e] at hl; cases hl
      rw [hplot, if_neg hdfne]
      obtain ⟨r, hr⟩ := mapM_ok.mpr fun a ha => nsamText_ok.mpr (hk a ha)
      obtain ⟨hs, hhs⟩ := mapM_ok (f := handle algs) (l := [0, 2, 1]).mpr (by
        intro i hi
        refine handle_ok.mpr ?_
        simp only [List.mem_cons, List.not_mem_nil, or_false] at hi
        omega)
      have hin : ∀ a ∈ hs, a ∈ known := by
        intro a ha
        obtain ⟨x, hx⟩ := (handle_ok (l := algs) (i := 0)).mpr (by omega)
        obtain ⟨y, hy⟩ := (handle_ok (l := algs) (i := 2)).mpr (by omega)
        obtain ⟨z, hz⟩ := (handle_ok (l := algs) (i := 1)).mpr (by omega)
        have : hs = [x, y, z] := by
          simp only [List.mapM_cons, List.mapM_nil, hx, hy, hz, Bind.bind, Except.bind, pure, Except.pure] at hhs
          cases hhs
          rfl
        subst this
        simp only [List.mem_cons, List.not_mem_nil, or_false] at ha
        rcases ha with rfl | rfl | rfl
        · exact hk _ (List.mem_of_getElem? (handle_mem hx))
        · exact hk _ (List.mem_of_getElem? (handle_mem hy))
        · exact hk _ (List.mem_of_getElem? (handle_mem hz))
      obtain ⟨ts, hts⟩ := mapM_ok.mpr fun a ha => nsamText_ok.mpr (hin a ha)
      refine ⟨⟨algs.map fun a => (a, curve df a), ts.zip hs⟩, ?_⟩
      rw [hr, hhs]
      simp only [Except.bind]
      rw [hts]
  · intro F hF
    obtain ⟨h1, h2, h3, x, y, z, hx, hy, hz, h4, h5⟩ := hres F hF
    have hp := hknown h1 h2
    have hl : algs.length = 3 := hp.length_eq
    refine ⟨?_, ?_, h5⟩
    · rw [h3, List.map_map]
      exact (List.map_id algs).symm ▸ hp
    · rw [h4]
      have he : algs = [x, z, y] := by
        match halg : algs, hl with
        | [p, q, r], _ =>
          rw [halg] at hx hy hz
          simp at hx hy hz
          subst hx; subst hy; subst hz; rfl
      rw [he] at hp
      exact (List.Perm.cons x (List.Perm.swap z y [])).trans hp

/-- **C134, solo plot.** It is drawn exactly if it knows all algorithms in the file, apart from the incremental one; every curve is in the legend with the label of its
algorithm. -/
theorem C134_solo (rows : List Solved) :
    ((∃ F, plotSolo rows = .ok F) ↔ shownAlgs rows ⊆ known.toFinset) ∧
    ∀ F, plotSolo rows = .ok F → (F.curves.map Prod.fst).Nodup ∧ (∀ a, a ∈ F.curves.map Prod.fst ↔ a ∈ shownAlgs rows) ∧
      F.legend.map Prod.snd = F.curves.map Prod.fst ∧ ∀ p ∈ F.legend, nsamLabel p.2 = some p.1 := by
  set df := rows.filter fun r => decide (r.alg ≠ .incrementalNsam) with hdf
  set algs := unique (df.map Solved.alg) with halgs
  have hmem : ∀ a, a ∈ algs ↔ a ∈ shownAlgs rows := shown_eq rows
  have hnd : algs.Nodup := nodup_unique _
  have hplot : plotSolo rows = (algs.mapM nsamText).bind fun ts => .ok ⟨algs.map fun a => (a, curve df a), ts.zip algs⟩ := rfl
  have hiff : (∃ r, algs.mapM nsamText = .ok r) ↔ shownAlgs rows ⊆ known.toFinset := by
    rw [mapM_ok]
    constructor
    · exact fun h a ha => List.mem_toFinset.mpr (nsamText_ok.mp (h a ((hmem a).mpr ha)))
    · exact fun h a ha => nsamText_ok.mpr (List.mem_toFinset.mp (h ((hmem a).mp ha)))
  cases h1 : algs.mapM nsamText with
  | error e =>
    rw [h1] at hiff hplot
    have hno : ¬ ∃ F, plotSolo rows = .ok F := by rintro ⟨F, hF⟩; rw [hplot] at hF; cases hF
    refine ⟨iff_of_false hno fun h => ?_, fun F hF => absurd ⟨F, hF⟩ hno⟩
    obtain ⟨r, hr⟩ := hiff.mpr h
    cases hr
  | ok ts =>
    rw [h1] at hiff hplot
    refine ⟨iff_of_true ⟨_, hplot⟩ (hiff.mp ⟨_, rfl⟩), fun F hF => ?_⟩
    rw [hplot] at hF
    cases hF
    obtain ⟨hlen, hlab⟩ := mapM_text h1
    have hc : (algs.map fun a => (a, curve df a)).map Prod.fst = algs := by
      rw [List.map_map]
      exact List.map_id _
    dsimp only
    rw [hc]
    exact ⟨hnd, hmem, List.map_snd_zip (by rw [hlen]), hlab⟩

/-! ### The multi-agent plot -/

theorem label_injective {a b : Alg} {t : String} (ha : nsamLabel a = some t) (hb : nsamLabel b = some t) : a = b := by
  have := ha.trans hb.symm
  cases a <;> cases b <;> first | rfl | (simp [nsamLabel] at ha hb this)

theorem labels_nodup {legend : List (String × Alg)} (h : ∀ p ∈ legend, nsamLabel p.2 = some p.1) (hnd : (legend.map Prod.snd).Nodup) :
    (legend.map Prod.fst).Nodup := by
  rw [List.Nodup, List.pairwise_map] at hnd ⊢
  refine hnd.imp_of_mem fun {p q} hp hq hne he => hne (label_injective (h p hp) (he ▸ h q hq))

/-- **C134, readable legends.** No two curves of the numeric plots have the same text in the legend. -/
theorem C134_legend_texts_distinct (rows : List Solved) :
    (∀ F, plotNsam rows = .ok F → (F.legend.map Prod.fst).Nodup) ∧ ∀ F, plotSolo rows = .ok F → (F.legend.map Prod.fst).Nodup := by
  constructor
  · intro F hF
    obtain ⟨_, h2, h3⟩ := (C134_nsam rows).2 F hF
    exact labels_nodup h3 (h2.nodup_iff.mpr (by decide))
  · intro F hF
    obtain ⟨h1, _, h2, h3⟩ := (C134_solo rows).2 F hF
    exact labels_nodup h3 (h2 ▸ h1)

/-- The algorithms of the multi-agent experiments. -/
def multi : List Alg := [.maSam, .maSamPlus, .samLearning]

theorem maName_inj {a b : Alg} (h : maName a = maName b) : a = b := by
  revert h; cases a <;> cases b <;> decide

theorem multi_first : ∀ a ∈ multi, ∀ b, b ∉ multi → strLe (maName a) (maName b) = true := by
  intro a ha b
  simp only [multi, List.mem_cons, List.not_mem_nil, or_false] at ha
  rcases ha with rfl | rfl | rfl <;> cases b <;> decide

/-- The rows of the plot. -/
def kept (rows : List Solved) : List Solved := rows.filter fun r => decide (r.policy = "no_remove")

theorem mem_maAlgs {rows : List Solved} {a : Alg} : a ∈ maAlgs rows ↔ ∃ r ∈ rows, r.alg = a := by
  unfold maAlgs
  rw [List.mem_insertionSort, List.mem_dedup, List.mem_map]

theorem nodup_maAlgs (rows : List Solved) : (maAlgs rows).Nodup := (List.perm_insertionSort _ _).nodup_iff.mpr (List.nodup_dedup _)

theorem sorted_maAlgs (rows : List Solved) : (maAlgs rows).Pairwise fun a b => strLe (maName a) (maName b) = true := by
  haveI : Std.Total fun a b : Alg => strLe (maName a) (maName b) = true := ⟨fun a b => OnlineResults.strLe_total _ _⟩
  haveI : IsTrans Alg fun a b => strLe (maName a) (maName b) = true := ⟨fun a b c => OnlineResults.strLe_trans⟩
  exact List.pairwise_insertionSort _ _

/-- If the three are there, they are the first three. -/
theorem maAlgs_first {rows : List Solved} (h : ∀ a ∈ multi, ∃ r ∈ rows, r.alg = a) : ∃ rest, maAlgs rows = multi ++ rest := by
  refine ⟨(maAlgs rows).filter fun a => decide (a ∉ multi), ?_⟩
  refine List.Perm.eq_of_pairwise (le := fun a b => strLe (maName a) (maName b) = true) (fun a b _ _ h1 h2 => maName_inj (OnlineResults.strLe_antisymm h1 h2))
    (sorted_maAlgs rows) ?_ ?_
  · refine List.pairwise_append.mpr ⟨by unfold multi; decide, (sorted_maAlgs rows).filter _, fun a ha b hb => ?_⟩
    exact multi_first a ha b (by simpa using (List.mem_filter.mp hb).2)
  · refine (List.perm_ext_iff_of_nodup (nodup_maAlgs rows) ?_).mpr fun a => ?_
    · refine List.nodup_append.mpr ⟨by unfold multi; decide, (nodup_maAlgs rows).filter _, fun a ha b hb e => ?_⟩
      subst e
      have := (List.mem_filter.mp hb).2
      simp only [decide_eq_true_eq] at this
      exact this ha
    · rw [List.mem_append, List.mem_filter, decide_eq_true_eq]
      constructor
      · intro ha
        by_cases hm : a ∈ multi
        · exact .inl hm
        · exact .inr ⟨ha, hm⟩
      · rintro (hm | ⟨ha, _⟩)
        · exact mem_maAlgs.mpr (h a hm)
        · exact ha

/-- The texts of the legend and the algorithms they stand for. -/
def meant : List (String × Alg) := [("SAM", .samLearning), ("MA-SAM", .maSam), ("MA-SAM+", .maSamPlus)]

/-- **C134, multi-agent plot.** It is drawn exactly if the rows that keep all preconditions have at least three algorithms. Its legend is right exactly if the three
algorithms it names are among them. -/
theorem C134_masam (rows : List Solved) :
    ((∃ F, plotMasam rows = .ok F) ↔ 3 ≤ ((kept rows).map Solved.alg).toFinset.card) ∧
    ∀ F, plotMasam rows = .ok F → (∀ a, a ∈ F.curves.map Prod.fst ↔ ∃ r ∈ rows, r.policy = "no_remove" ∧ r.alg = a) ∧
      (F.legend = meant ↔ ∀ a ∈ multi, ∃ r ∈ rows, r.policy = "no_remove" ∧ r.alg = a) := by
  have hplot : plotMasam rows = ([2, 0, 1].mapM (handle (maAlgs (kept rows)))).bind fun hs =>
    .ok ⟨(maAlgs (kept rows)).map fun a => (a, curve (kept rows) a), ["SAM", "MA-SAM", "MA-SAM+"].zip hs⟩ := rfl
  have hcard : (maAlgs (kept rows)).length = ((kept rows).map Solved.alg).toFinset.card := by
    rw [← List.toFinset_card_of_nodup (nodup_maAlgs _)]
    congr 1
    ext a
    rw [List.mem_toFinset, mem_maAlgs, List.mem_toFinset, List.mem_map]
  have hkept : ∀ a, (∃ r ∈ kept rows, r.alg = a) ↔ ∃ r ∈ rows, r.policy = "no_remove" ∧ r.alg = a := by
    intro a
    constructor
    · rintro ⟨r, hr, h⟩
      obtain ⟨h1, h2⟩ := List.mem_filter.mp hr
      exact ⟨r, h1, by simpa using h2, h⟩
    · rintro ⟨r, hr, h1, h2⟩
      exact ⟨r, List.mem_filter.mpr ⟨hr, by simpa using h1⟩, h2⟩
  constructor
  · rw [hplot, ← hcard]
    constructor
    · rintro ⟨F, hF⟩
      cases h : [2, 0, 1].mapM (handle (maAlgs (kept rows))) with
      | error e => rw [h] at hF; cases hF
      | ok hs => exact handle_ok.mp (mapM_ok.mp ⟨_, h⟩ 2 (by simp))
    · intro h
      obtain ⟨hs, hhs⟩ := mapM_ok (f := handle (maAlgs (kept rows))) (l := [2, 0, 1]).mpr (by
        intro i hi
        refine handle_ok.mpr ?_
        simp only [List.mem_cons, List.not_mem_nil, or_false] at hi
        omega)
      exact ⟨⟨(maAlgs (kept rows)).map fun a => (a, curve (kept rows) a), ["SAM", "MA-SAM", "MA-SAM+"].zip hs⟩, by rw [hhs]; rfl⟩
  · intro F hF
    rw [hplot] at hF
    cases h : [2, 0, 1].mapM (handle (maAlgs (kept rows))) with
    | error e => rw [h] at hF; cases hF
    | ok hs =>
      rw [h] at hF
      cases hF
      have hh := mapM_ok.mp ⟨_, h⟩
      obtain ⟨x, hx⟩ := hh 2 (by simp)
      obtain ⟨y, hy⟩ := hh 0 (by simp)
      obtain ⟨z, hz⟩ := hh 1 (by simp)
      have hhs : hs = [x, y, z] := by
        simp only [List.mapM_cons, List.mapM_nil, hx, hy, hz, Bind.bind, Except.bind, pure, Except.pure] at h
        cases h
        rfl
      subst hhs
      have hx := handle_mem hx
      have hy := handle_mem hy
      have hz := handle_mem hz
      constructor
      · intro a
        have : (List.map (fun a => (a, curve (kept rows) a)) (maAlgs (kept rows))).map Prod.fst = maAlgs (kept rows) := by
          rw [List.map_map]; exact List.map_id _
        dsimp only
        rw [this, mem_maAlgs, hkept]
      · constructor
        · intro hl a ha
          have hl : [("SAM", x), ("MA-SAM", y), ("MA-SAM+", z)] = meant := hl
          simp only [meant, List.cons.injEq, Prod.mk.injEq, true_and, and_true] at hl
          obtain ⟨rfl, rfl, rfl⟩ := hl
          rw [← hkept, ← mem_maAlgs]
          simp only [multi, List.mem_cons, List.not_mem_nil, or_false] at ha
          rcases ha with rfl | rfl | rfl
          · exact List.mem_of_getElem? hy
          · exact List.mem_of_getElem? hz
          · exact List.mem_of_getElem? hx
        · intro hm
          obtain ⟨rest, hr⟩ := maAlgs_first (rows := kept rows) fun a ha => (hkept a).mpr (hm a ha)
          rw [hr] at hx hy hz
          simp only [multi, List.cons_append, List.nil_append, List.getElem?_cons_succ, List.getElem?_cons_zero, Option.some.injEq] at hx hy hz
          subst hx; subst hy; subst hz
          rfl

/-! ### The collector of the numeric experiments with its plots -/

theorem inOrder_cons (f : Dir → Dir × Option CollErr) (s : List (Dir → Dir × Option CollErr)) (d : Dir) :
    inOrder (f :: s) d = if (f d).2 = none then inOrder s (f d).1 else f d := by
  rw [inOrder]
  rcases h : f d with ⟨d', _ | e⟩ <;> simp

/-- A table that was read: the algorithm of a row is in its cells, and every run of an algorithm writes rows with its name. -/
structure Reads (read : Table → List Solved) (jobs : List Job) : Prop where
  algOf : ∃ algOf : List String → Alg, (∀ t, (read t).map Solved.alg = t.cells.map algOf) ∧
    ∀ j ∈ jobs, j.kind = .solving → ∀ r ∈ j.table.cells, ∀ f : Nat, algOf (String.ofList (num f) :: r) = j.alg
  rows : ∀ j ∈ jobs, j.kind = .solving → j.table.cells ≠ []

/-- **C134, numeric collector.** When all runs have written their files, `collect_numeric_statistics` succeeds exactly if the algorithms of the experiment, apart from the
incremental one, are the three the plot knows. Otherwise it raises before the syntactic and the numeric statistics: these two files are not written. -/
theorem C134_numeric_collector (read : Table → List Solved) (dom : Name) {columns : Results.Kind → List String} (hc : ∀ k, ("fold" :: columns k).Nodup) (c : Config)
    (jobs : List Job) (hn : (jobs.map Results.Job.key).Nodup)
    (hj : ∀ j ∈ jobs, j.table.fields = columns j.kind ∧ ∀ r ∈ j.table.cells, r.length = (columns j.kind).length)
    (hall : ∀ k, k = .solving ∨ k = .syntactic ∨ k = .numeric → ∀ f < c.folds, ∀ i ∈ c.iters, ∀ a ∈ c.algs, (k, a, f, some i) ∈ jobs.map Results.Job.key)
    (hf : 0 < c.folds) (hi : c.iters ≠ []) (hr : Reads read jobs) :
    ((numericWithPlots read dom columns c (Results.runs dom jobs)).2 = none ↔ (c.algs.toFinset.erase .incrementalNsam) = known.toFinset) ∧
    ((numericWithPlots read dom columns c (Results.runs dom jobs)).2 = none →
      (numericWithPlots read dom columns c (Results.runs dom jobs)).1 = (collectNumeric dom columns c (Results.runs dom jobs)).1) ∧
    ((numericWithPlots read dom columns c (Results.runs dom jobs)).2 ≠ none → ∀ k, k = .syntactic ∨ k = .numeric →
      (numericWithPlots read dom columns c (Results.runs dom jobs)).1 (combinedName k false) = none) := by
  obtain ⟨hok, htab⟩ := Results.C104_numeric_complete dom hc c jobs hn hj hall
  obtain ⟨t, ht, _, hcells⟩ := htab .solving (by simp)
  set d0 := Results.runs dom jobs with hd0
  set A := collect dom columns c .solving false none with hA
  set B := collect dom columns c .syntactic false none with hB
  set C := collect dom columns c .numeric false none with hC
  have hnum : collectNumeric dom columns c d0 = if (A d0).2 = none then (if (B (A d0).1).2 = none then
      (if (C (B (A d0).1).1).2 = none then ((C (B (A d0).1).1).1, none) else C (B (A d0).1).1) else B (A d0).1) else A d0 := by
    unfold collectNumeric
    rw [Results.steps_cons, Results.steps_cons, Results.steps_cons]
    rfl
  have h1 : (A d0).2 = none := by
    by_contra h
    rw [hnum, if_neg h] at hok
    exact h hok
  have h2 : (B (A d0).1).2 = none := by
    by_contra h
    rw [hnum, if_pos h1, if_neg h] at hok
    exact h hok
  have h3 : (C (B (A d0).1).1).2 = none := by
    by_contra h
    rw [hnum, if_pos h1, if_pos h2, if_neg h] at hok
    exact h hok
  have hend : collectNumeric dom columns c d0 = ((C (B (A d0).1).1).1, none) := by rw [hnum, if_pos h1, if_pos h2, if_pos h3]
  have ht' : (A d0).1 (combinedName .solving false) = some t := by
    rw [hend] at ht
    dsimp only at ht
    rw [hC, Results.collect_other dom columns c .numeric false none _ (by decide), hB, Results.collect_other dom columns c .syntactic false none _ (by decide)] at ht
    exact ht
  -- the algorithms in the combined file
  have halg : ∀ a, a ∈ (read t).map Solved.alg ↔ a ∈ c.algs := by
    intro a
    obtain ⟨algOf, g1, g2⟩ := hr.algOf
    rw [g1, hcells]
    simp only [List.mem_map, List.mem_flatMap, List.mem_range, List.mem_filter, decide_eq_true_eq, Results.labelled]
    constructor
    · rintro ⟨x, ⟨f, hf, i, hi, b, hb, j, ⟨hjm, hkey⟩, r, hr', rfl⟩, rfl⟩
      have hk : j.kind = .solving ∧ j.alg = b := by
        unfold Results.Job.key at hkey
        simp only [Prod.mk.injEq] at hkey
        exact ⟨hkey.1, hkey.2.1⟩
      rw [g2 j hjm hk.1 r hr' f, hk.2]
      exact hb
    · intro ha
      obtain ⟨i, hi⟩ := List.exists_mem_of_ne_nil _ hi
      obtain ⟨j, hjm, hkey⟩ := List.mem_map.mp (hall .solving (by simp) 0 hf i hi a ha)
      have hk : j.kind = .solving ∧ j.alg = a := by
        unfold Results.Job.key at hkey
        simp only [Prod.mk.injEq] at hkey
        exact ⟨hkey.1, hkey.2.1⟩
      obtain ⟨r, hr'⟩ := List.exists_mem_of_ne_nil _ (hr.rows j hjm hk.1)
      exact ⟨_, ⟨0, hf, i, hi, a, ha, j, ⟨hjm, hkey⟩, r, hr', rfl⟩, by rw [g2 j hjm hk.1 r hr' 0, hk.2]⟩
  have hshown : shownAlgs (read t) = c.algs.toFinset.erase .incrementalNsam := by
    ext a
    unfold shownAlgs
    rw [List.mem_toFinset, List.mem_filter, Finset.mem_erase, List.mem_toFinset, halg, decide_eq_true_eq, and_comm]
  have hP : ∀ plot : List Solved → Except Err Figure, plotting read (combinedName .solving false) plot (A d0).1 =
      match plot (read t) with | .ok _ => ((A d0).1, none) | .error e => ((A d0).1, some (.py e)) := by
    intro plot
    unfold plotting
    rw [ht']
    rfl
  have hAc : (collecting A d0) = ((A d0).1, none) := by unfold collecting; rw [h1]; rfl
  have hall' : numericWithPlots read dom columns c d0 = inOrder [plotting read (combinedName .solving false) plotNsam,
      plotting read (combinedName .solving false) plotSolo, collecting B, collecting C] (A d0).1 := by
    unfold numericWithPlots
    rw [inOrder_cons, ← hA, hAc, if_pos rfl]
  obtain ⟨n1, _⟩ := C134_nsam (read t)
  obtain ⟨s1, _⟩ := C134_solo (read t)
  by_cases h : shownAlgs (read t) = known.toFinset
  · obtain ⟨F, hF⟩ := n1.mpr h
    obtain ⟨G, hG⟩ := s1.mpr (by rw [h])
    have hres : numericWithPlots read dom columns c d0 = ((C (B (A d0).1).1).1, none) := by
      rw [hall', inOrder_cons, hP, hF]
      dsimp only
      rw [if_pos rfl, inOrder_cons, hP, hG]
      dsimp only
      rw [if_pos rfl, inOrder_cons]
      have hBc : collecting B (A d0).1 = ((B (A d0).1).1, none) := by unfold collecting; rw [h2]; rfl
      rw [hBc, if_pos rfl, inOrder_cons]
      have hCc : collecting C (B (A d0).1).1 = ((C (B (A d0).1).1).1, none) := by unfold collecting; rw [h3]; rfl
      rw [hCc, if_pos rfl]
      rfl
    rw [hres]
    refine ⟨iff_of_true rfl (hshown ▸ h), fun _ => by rw [hend], fun h => absurd rfl h⟩
  · have hno : ∃ e, plotNsam (read t) = .error e := by
      cases hp : plotNsam (read t) with
      | error e => exact ⟨e, rfl⟩
      | ok F => exact absurd (n1.mp ⟨F, hp⟩) h
    obtain ⟨e, he⟩ := hno
    have hres : numericWithPlots read dom columns c d0 = ((A d0).1, some (.py e)) := by
      rw [hall', inOrder_cons, hP, he]
      dsimp only
      rw [if_neg (by simp)]
    rw [hres]
    refine ⟨iff_of_false (by simp) (hshown ▸ h), fun h => by simp at h, fun _ k hk => ?_⟩
    have hne : combinedName k false ≠ combinedName .solving false := by rcases hk with rfl | rfl <;> decide
    dsimp only
    rw [hA, Results.collect_other dom columns c .solving false none _ hne, hd0, Results.runs_none]
    exact fun j _ => Results.combined_ne _ _ _ _ _ _ _

end SolvingPlots

namespace SolvingPlots
namespace Case
open Model Model.Results Model.OnlineResults Model.Plots

/-- Two runs of each of three algorithms. -/
def numRows : List Solved :=
  [⟨.numericSam, "no_remove", 2, 50⟩, ⟨.numericSam, "no_remove", 1, 10⟩, ⟨.naiveNsam, "no_remove", 1, 0⟩, ⟨.numericSam, "no_remove", 1, 30⟩,
   ⟨.incrementalNsam, "no_remove", 1, 0⟩, ⟨.planMiner, "no_remove", 1, 100⟩]

example : curve numRows .numericSam = [⟨1, 20, some 200⟩, ⟨2, 50, none⟩] := by decide +kernel

example : ∀ r ∈ numRows, 0 ≤ r.ok ∧ r.ok ≤ 100 := by decide +kernel

/-- The plot is drawn, and the legend is in the order 0, 2, 1. -/
example : ∃ F, plotNsam numRows = .ok F ∧ F.legend = [("NSAM*", .numericSam), ("Plan Miner", .planMiner), ("NSAM", .naiveNsam)] := by
  refine ⟨⟨[(.numericSam, [⟨1, 20, some 200⟩, ⟨2, 50, none⟩]), (.naiveNsam, [⟨1, 0, none⟩]), (.planMiner, [⟨1, 100, none⟩])],
    [("NSAM*", .numericSam), ("Plan Miner", .planMiner), ("NSAM", .naiveNsam)]⟩, ?_, rfl⟩
  decide +kernel

/-- With two algorithms, or an unknown one, or none, it raises; the solo plot only with the unknown one. -/
example : plotNsam (numRows.take 4) = .error .indexError ∧ plotNsam (⟨.naivePolysam, "no_remove", 1, 0⟩ :: numRows) = .error .keyError ∧ plotNsam [] = .error .valueError ∧
    (∃ F, plotSolo (numRows.take 4) = .ok F) ∧ plotSolo (⟨.naivePolysam, "no_remove", 1, 0⟩ :: numRows) = .error .keyError := by
  refine ⟨by decide +kernel, by decide +kernel, by decide +kernel, ?_, by decide +kernel⟩
  exact (C134_solo _).1.mpr (by decide +kernel)

/-- The multi-agent plot with the three algorithms, and with another one instead of `MA-SAM+`: its curve is in the legend under a wrong name. -/
example : (∃ F, plotMasam [⟨.samLearning, "no_remove", 1, 0⟩, ⟨.maSamPlus, "no_remove", 1, 0⟩, ⟨.maSam, "no_remove", 1, 0⟩] = .ok F ∧ F.legend = meant) ∧
    ∃ F, plotMasam [⟨.samLearning, "no_remove", 1, 0⟩, ⟨.esamLearning, "no_remove", 1, 0⟩, ⟨.maSam, "no_remove", 1, 0⟩] = .ok F ∧
      F.legend = [("SAM", .esamLearning), ("MA-SAM", .maSam), ("MA-SAM+", .samLearning)] := by
  refine ⟨⟨⟨[(.maSam, [⟨1, 0, none⟩]), (.maSamPlus, [⟨1, 0, none⟩]), (.samLearning, [⟨1, 0, none⟩])], meant⟩, by decide +kernel, rfl⟩,
    ⟨⟨[(.maSam, [⟨1, 0, none⟩]), (.samLearning, [⟨1, 0, none⟩]), (.esamLearning, [⟨1, 0, none⟩])],
      [("SAM", .esamLearning), ("MA-SAM", .maSam), ("MA-SAM+", .samLearning)]⟩, by decide +kernel, rfl⟩⟩

/-- Two values, repeated for two iterations: the mean stays, the variance goes from 200 to 400/3. -/
example : variance [10, 30] = some 200 ∧ mean [10, 30, 10, 30] = 20 ∧ variance ((List.replicate 2 [10, 30]).flatten) = some (400 / 3) := by decide +kernel

/-- The name of an algorithm in a row of the case. -/
def algOf : List String → Alg
  | [_, "naive", _] => .naiveNsam
  | [_, "miner", _] => .planMiner
  | _ => .numericSam
/-- Reading the rows of the case. -/
def read (t : Table) : List Solved := t.cells.map fun r => ⟨algOf r, "no_remove", 1, 0⟩
/-- How the case writes an algorithm. -/
def text : Alg → String
  | .naiveNsam => "naive"
  | .planMiner => "miner"
  | _ => "nsam"
/-- Every run of a grid. -/
def grid (algs : List Alg) : List Job :=
  [Results.Kind.solving, .syntactic, .numeric].flatMap fun k => [0, 1].flatMap fun f => [1, 3].flatMap fun i => algs.map fun a =>
    ⟨k, a, f, some i, ⟨["alg", "ok"], [[text a, String.ofList (num (10 * f + i))], [text a, ""]]⟩⟩
def cols : Results.Kind → List String := fun _ => ["alg", "ok"]

theorem reads (algs : List Alg) (h : ∀ a ∈ algs, algOf ["", text a, ""] = a) : Reads read (grid algs) := by
  have hj : ∀ j ∈ grid algs, j.alg ∈ algs ∧ ∃ x, j.table.cells = [[text j.alg, x], [text j.alg, ""]] := by
    intro j hj
    unfold grid at hj
    simp only [List.mem_flatMap, List.mem_map] at hj
    obtain ⟨k, _, f, _, i, _, a, ha, rfl⟩ := hj
    exact ⟨ha, _, rfl⟩
  have hx : ∀ (a : Alg) (x y : String), algOf [x, text a, y] = algOf ["", text a, ""] := fun a x y => by cases a <;> rfl
  refine ⟨⟨algOf, fun t => by unfold read; rw [List.map_map]; rfl, fun j hjm _ r hr f => ?_⟩, fun j hjm _ => ?_⟩
  · obtain ⟨ha, x, hc⟩ := hj j hjm
    rw [hc] at hr
    simp only [List.mem_cons, List.not_mem_nil, or_false] at hr
    rcases hr with rfl | rfl <;> rw [hx, h _ ha]
  · obtain ⟨_, x, hc⟩ := hj j hjm
    rw [hc]
    simp

def three : Config := ⟨[.numericSam, .naiveNsam, .planMiner], 2, [1, 3]⟩
def two : Config := ⟨[.numericSam, .naiveNsam], 2, [1, 3]⟩

example : Reads read (grid three.algs) ∧ Reads read (grid two.algs) := ⟨reads _ (by decide), reads _ (by decide)⟩

example : ((grid three.algs).map Results.Job.key).Nodup ∧
    (∀ j ∈ grid three.algs, j.table.fields = cols j.kind ∧ ∀ r ∈ j.table.cells, r.length = (cols j.kind).length) ∧
    (∀ k, k = .solving ∨ k = .syntactic ∨ k = .numeric → ∀ f < three.folds, ∀ i ∈ three.iters, ∀ a ∈ three.algs,
      (k, a, f, some i) ∈ (grid three.algs).map Results.Job.key) ∧ ∀ k, ("fold" :: cols k).Nodup := by
  refine ⟨by decide +kernel, by decide +kernel, ?_, by intro k; unfold cols; decide⟩
  rintro k (rfl | rfl | rfl) <;> decide +kernel

/-- Three algorithms: all files are written. Two: the solving file only. -/
example : (numericWithPlots read "d".toList cols three (Results.runs "d".toList (grid three.algs))).2 = none ∧
    (numericWithPlots read "d".toList cols two (Results.runs "d".toList (grid two.algs))).2 = some (.py .indexError) := by decide +kernel

end Case
end SolvingPlots
end Props
