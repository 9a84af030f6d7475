import Verif.Model.LinReg
import Verif.Lemmas.HullLearner
import Verif.Props.Numeric

namespace Model
open Spec

section
variable {K : Type} [Field K] [LinearOrder K] {C : Type}

/-- A list of coefficients as a function value. -/
def affList (cs : List K) (feats : List C) (b : K) (v : C → K) : K := (List.zipWith (fun a f => a * v f) cs feats).sum + b

/-- Two affine functions that agree on the rows agree on their convex combinations. -/
theorem aff_agree {rows : List (C → K)} {cs cs' : List K} {fs fs' cols : List C} {b b' : K}
    (h : ∀ r ∈ rows, affList cs fs b r = affList cs' fs' b' r) (hf : ∀ f ∈ fs, f ∈ cols) (hf' : ∀ f ∈ fs', f ∈ cols)
    {v : C → K} (hv : InHull cols rows v) : affList cs fs b v = affList cs' fs' b' v := by
  obtain ⟨w, w1, -, w3, w4⟩ := hv
  have key : ∀ (cs : List K) (fs : List C) (b : K), (∀ f ∈ fs, f ∈ cols) →
      affList cs fs b v = (List.zipWith (fun k (r : C → K) => k * affList cs fs b r) w rows).sum := by
    intro cs fs b hfs
    have h1 := comb_affine (C := Option C) (w := w) (rows := rows.map fun r => fun o => match o with
      | none => affList cs fs b r
      | some c => r c) (by simpa using w1) (c := none) (cs := cs) (feats := fs.map some) (b := b) (by
        intro r hr
        obtain ⟨r0, _, rfl⟩ := List.mem_map.mp hr
        rw [List.zipWith_map_right]
        rfl)
    rw [List.zipWith_map_right] at h1
    rw [h1, w3, mul_one, List.zipWith_map_right]
    unfold affList
    congr 2
    apply zipWith_congr_mem
    intro f hf
    rw [w4 f (hfs f hf), List.zipWith_map_right]
  rw [key cs fs b hf, key cs' fs' b' hf']
  congr 1
  clear key w1 w3 w4
  induction rows generalizing w with
  | nil => simp
  | cons r rows ih =>
    cases w with
    | nil => rfl
    | cons k w =>
      simp only [List.zipWith_cons_cons]
      rw [h r (by simp), ih (fun r hr => h r (by simp [hr]))]

theorem affine_value_eq (a : Affine K C) (v : C → K) : a.value v = affList (a.cols.map a.coef) a.cols a.const v := by
  unfold Affine.value affList
  congr 2
  generalize a.cols = l
  induction l with
  | nil => rfl
  | cons c l ih => simp [ih]

theorem dedupBy_mem {α β : Type} [DecidableEq β] {key : α → β} {l : List α} {a : α} (h : a ∈ dedupBy key l) : a ∈ l := by
  induction l with
  | nil => simp [dedupBy] at h
  | cons b l ih =>
    rw [dedupBy, List.mem_cons] at h
    rcases h with rfl | h
    · simp
    · exact List.mem_cons_of_mem _ (ih (List.mem_filter.mp h).1)

theorem dedupBy_rep {α β : Type} [DecidableEq β] {key : α → β} {l : List α} {a : α} (h : a ∈ l) :
    ∃ b ∈ dedupBy key l, key b = key a := by
  induction l with
  | nil => simp at h
  | cons b l ih =>
    rw [dedupBy]
    by_cases hk : key b = key a
    · exact ⟨b, by simp, hk⟩
    · have h' : a ∈ l := by
        rcases List.mem_cons.mp h with rfl | h
        · exact absurd rfl hk
        · exact h
      obtain ⟨c, hc, he⟩ := ih h'
      refine ⟨c, List.mem_cons_of_mem _ (List.mem_filter.mpr ⟨hc, ?_⟩), he⟩
      simp only [decide_eq_true_eq]
      rw [he]
      exact fun e => hk e.symm
end

variable {K : Type} [Field K] [LinearOrder K] [IsStrictOrderedRing K] [FloorRing K]
variable {C : Type} [DecidableEq C]

/-- The value a fluent gets from its effect, or its old value when there is none. -/
def effValue (fname : C → String) (f : C) (e : Option (NEffect K)) (x : String → K) : K :=
  match e with
  | some e => e.newValue x
  | none => x (fname f)

/-- What the effect found for a fluent does: it makes the fluent an affine function of the features
that gives all the labels. -/
structure EffectFits (colExp : C → NExp K) (fname : C → String) (f : C) (cols : List C) (data : List ((C → K) × K))
    (e : Option (NEffect K)) : Prop where
  target : ∀ x, e = some x → x.target = fname f
  fits : ∃ cs fs b, (∀ g ∈ fs, g ∈ cols) ∧ (∀ p ∈ data, p.2 = affList cs fs b p.1) ∧
    ∀ x : String → K, effValue fname f e x = affList cs fs b (colVal colExp x)

theorem getD_lt {α : Type} {l : List α} {i : Nat} {x : α} (h : i < l.length) : l.getD i x = l[i] := by
  simp [List.getD_eq_getElem?_getD, h]

theorem sum_getD_single {cs : List K} {feats : List C} {v : C → K} (hl : cs.length = feats.length) {i : Nat} (hi : i < cs.length)
    (h0 : ∀ j, j < cs.length → j ≠ i → cs.getD j 0 = 0) :
    (List.zipWith (fun a f => a * v f) cs feats).sum = cs[i] * v (feats[i]'(by omega)) := by
  induction cs generalizing feats i with
  | nil => simp at hi
  | cons a cs ih =>
    cases feats with
    | nil => simp at hl
    | cons f feats =>
      have hl' : cs.length = feats.length := by simpa using hl
      simp only [List.zipWith_cons_cons, List.sum_cons]
      cases i with
      | zero =>
        have hz : ∀ (cs : List K) (feats : List C), (∀ c ∈ cs, c = 0) → (List.zipWith (fun a f => a * v f) cs feats).sum = 0 := by
          intro cs
          induction cs with
          | nil => simp
          | cons c cs ih =>
            intro feats hc
            cases feats with
            | nil => simp
            | cons f fs =>
              simp only [List.zipWith_cons_cons, List.sum_cons, hc c (by simp), zero_mul, zero_add]
              exact ih fs (fun c' hc' => hc c' (by simp [hc']))
        rw [hz cs feats ?_]
        · simp
        · intro c hc
          obtain ⟨j, hj, rfl⟩ := List.mem_iff_getElem.mp hc
          have := h0 (j + 1) (by simp; omega) (by omega)
          simpa [List.getD_eq_getElem?_getD, hj] using this
      | succ i =>
        have h1 : a = 0 := by simpa using h0 0 (by simp) (by omega)
        rw [h1, zero_mul, zero_add]
        rw [ih hl' (by simpa using hi) (fun j hj hne => by simpa using h0 (j + 1) (by simp; omega) (by omega))]
        simp

/-- The numbers of a regression survive printing. -/
structure RegPrintable (d : Nat) (feats : List C) (f : C) (sol : (List K × K) × Bool) : Prop where
  coefs : ∀ c ∈ sol.1.1 ++ [sol.1.2], Printable d c
  self : ∀ i (hi : i < feats.length) (hi' : i < sol.1.1.length), feats[i] = f → Printable d (sol.1.1[i] - 1)

theorem solveLinear_fits {R : RegLib K C} (hR : RegContract R) {d : Nat} (hd : d ≤ 10) {colExp : C → NExp K} {fname : C → String} {f : C}
    {feats : List C} {data : List ((C → K) × K)} (hnd : feats.Nodup) (hinj : ∀ a ∈ feats, ∀ b ∈ feats, colExp a = colExp b → a = b)
    (hdum : ∀ c ∈ feats, colExp c ≠ dummy) (hname : colExp f = .var (fname f)) (hdata : data ≠ [])
    (hp : RegPrintable d feats f (R.solve feats data)) {e : Option (NEffect K)}
    (h : solveLinear R d false colExp fname f feats data = .ok e) (hsd : ∀ x, e = some x → x.op ≠ .scaleDown) :
    EffectFits colExp fname f feats data e := by
  unfold solveLinear at h
  dsimp only at h
  have hl := hR.length feats data
  have hsound := hR.sound feats data
  have hcoefs := hp.coefs
  have hself := hp.self
  revert h hl hsound hcoefs hself
  generalize R.solve feats data = sol
  obtain ⟨⟨cs, b⟩, flag⟩ := sol
  dsimp only
  intro h hl hsound hcoefs hself
  by_cases hflag : flag = false
  · simp [hflag] at h
  have hflag' : flag = true := by simpa using hflag
  have hs := hsound hflag'
  rw [if_neg (by simp [hflag'])] at h
  rw [prettifyCoefs_of_printable hcoefs] at h
  have hfit : ∀ p ∈ data, p.2 = affList cs feats b p.1 := hs
  by_cases hz : ((cs ++ [b]).all (· = 0)) ∧ data.all (fun p => p.2 = ((data.head?).map Prod.snd).getD 0)
  · rw [if_pos (by simpa using hz)] at h
    simp only [Except.ok.injEq] at h
    subst h
    refine ⟨by rintro x ⟨rfl⟩; rfl, [], [], ((data.head?).map Prod.snd).getD 0, by simp, ?_, fun x => by simp [affList, effValue, NEffect.newValue, NExp.eval]⟩
    intro p hp'
    have := List.all_eq_true.mp hz.2 p hp'
    simpa [affList] using this
  rw [if_neg (by simpa using hz)] at h
  cases hsf : scaleFactor feats (cs ++ [b]) f with
  | some k =>
    rw [hsf] at h
    dsimp only at h
    unfold scaleFactor at hsf
    dsimp only at hsf
    split_ifs at hsf with hc
    obtain ⟨hm, hne, hoth⟩ := hc
    simp only [Option.some.injEq] at hsf
    have hi : feats.idxOf f < feats.length := List.idxOf_lt_length_iff.mpr hm
    have hi' : feats.idxOf f < cs.length := by omega
    have hget : (cs ++ [b]).getD (feats.idxOf f) 0 = cs[feats.idxOf f] := by
      rw [getD_lt (by simp; omega), List.getElem_append_left hi']
    have hb0 : b = 0 := by
      have := hoth cs.length (by simp) (by omega)
      rw [getD_lt (by simp)] at this
      simpa using this
    have hk : k = cs[feats.idxOf f] := by
      rw [← hsf, hget]
      apply rnd_of_onGrid
      rcases hcoefs cs[feats.idxOf f] (by simp) with h0 | ⟨⟨n, hn⟩, _⟩
      · exact ⟨0, by rw [h0]; simp⟩
      · refine ⟨n * 10 ^ (10 - d), ?_⟩
        push_cast
        rw [← hn, mul_assoc, ← pow_add]
        congr 2
        omega
    have hsum : ∀ v : C → K, affList cs feats b v = k * v f := by
      intro v
      unfold affList
      rw [sum_getD_single hl hi' ?_, hb0, add_zero, hk]
      · congr 2
        exact List.getElem_idxOf hi
      · intro j hj hne'
        have := hoth j (by simp; omega) hne'
        rwa [getD_lt (by simp; omega), List.getElem_append_left hj, ← getD_lt hj] at this
    have hcv : ∀ x : String → K, colVal colExp x f = x (fname f) := by
      intro x; unfold colVal; rw [hname]; rfl
    split_ifs at h with hk1 hk2
    · simp only [Except.ok.injEq] at h
      subst h
      refine ⟨by simp, cs, feats, b, fun g hg => hg, hfit, fun x => ?_⟩
      rw [hsum, hk1, one_mul, hcv]
      rfl
    · simp only [Except.ok.injEq] at h
      subst h
      refine ⟨by rintro x ⟨rfl⟩; rfl, cs, feats, b, fun g hg => hg, hfit, fun x => ?_⟩
      rw [hsum, hcv]
      simp only [effValue, NEffect.newValue, NExp.eval]
      ring
    · simp only [Except.ok.injEq] at h
      exact absurd rfl (hsd _ h.symm)
  | none =>
    rw [hsf] at h
    dsimp only at h
    have hdumL : NExp.var "(dummy)" ∉ feats.map colExp := by
      intro hm
      obtain ⟨c, hc, he⟩ := List.mem_map.mp hm
      exact hdum c hc he
    have hlv : ∀ x : String → K, linearValue x cs (feats.map colExp) + b = affList cs feats b (colVal colExp x) := by
      intro x
      unfold linearValue affList
      rw [List.zipWith_map_right]
      rfl
    split_ifs at h with hc ht
    · obtain ⟨hm, hne⟩ := hc
      cases hn : nonCircular d (fname f) ((feats.map colExp ++ [dummy]).zip (cs ++ [b])) (nonZeroChange f data).2 (nonZeroChange f data).1 with
      | none => rw [hn] at h; simp at h
      | some e' =>
        rw [hn] at h
        simp only [Except.ok.injEq] at h
        subst h
        have key := fun x => Props.C41_non_circular_exact (d := d) (f := fname f) (fs := feats.map colExp) (cs := cs) (b := b)
          (e := e') (by simpa using hl) (List.Nodup.map_on (fun a ha b hb => hinj a ha b hb) hnd)
          hdumL (by rw [← hname]; exact List.mem_map.mpr ⟨f, hm, rfl⟩) hn
          (by
            intro i hi he
            have hi2 : i < feats.length := by simpa using hi
            refine hself i hi2 (by omega) ?_
            have h1 : colExp feats[i] = colExp f := by rw [hname]; simpa using he
            exact hinj _ (List.getElem_mem hi2) _ hm h1)
          (by intro i hi _; exact hcoefs _ (List.mem_append_left _ (List.getElem_mem _)))
          (hcoefs b (by simp)) x
        refine ⟨by rintro x ⟨rfl⟩; exact (key (fun _ => 0)).1, cs, feats, b, fun g hg => hg, hfit, fun x => ?_⟩
        rw [← hlv]
        exact (key x).2
    · exfalso
      -- no coefficient is printed: all are zero, so the labels are all zero
      have hall : ∀ c ∈ cs ++ [b], c = 0 := by
        intro c hc'
        by_contra hne
        refine mulTerms_ne_nil (d := d) (cs := cs ++ [b]) (fs := feats.map colExp ++ [dummy]) (by simp [hl]) ⟨c, hc', ?_⟩ ht
        rcases hcoefs c hc' with h0 | ⟨h1, h2⟩
        · exact absurd h0 hne
        · rw [rnd_of_onGrid h1]; exact h2
      apply hz
      have hlab : ∀ p ∈ data, p.2 = 0 := by
        intro p hp'
        rw [hfit p hp']
        unfold affList
        rw [hall b (by simp), add_zero]
        have : ∀ (cs : List K) (feats : List C), (∀ c ∈ cs, c = 0) → (List.zipWith (fun a f => a * p.1 f) cs feats).sum = 0 := by
          intro cs
          induction cs with
          | nil => simp
          | cons c cs ih =>
            intro feats hc
            cases feats with
            | nil => simp
            | cons f fs =>
              simp only [List.zipWith_cons_cons, List.sum_cons, hc c (by simp), zero_mul, zero_add]
              exact ih fs (fun c' hc' => hc c' (by simp [hc']))
        exact this cs feats (fun c hc' => hall c (by simp [hc']))
      refine ⟨by rw [List.all_eq_true]; intro c hc'; simpa using hall c hc', ?_⟩
      rw [List.all_eq_true]
      intro p hp'
      cases data with
      | nil => exact absurd rfl hdata
      | cons p0 data =>
        simp [hlab p hp', hlab p0 (by simp)]
    · simp only [Except.ok.injEq] at h
      subst h
      refine ⟨by rintro x ⟨rfl⟩; rfl, cs, feats, b, fun g hg => hg, hfit, fun x => ?_⟩
      rw [← hlv]
      exact Props.C40_affine_expression_exact (by simpa using hl) (fun c hc' => hcoefs c (by simp [hc'])) (hcoefs b (by simp)) hdumL x

theorem keptCols_mem {relevant : Option (List C)} {cols : List C} {c : C} (h : c ∈ keptCols relevant cols) : c ∈ cols := by
  cases relevant with
  | none => exact h
  | some fs => exact (List.mem_filter.mp h).1

theorem keptCols_nodup {relevant : Option (List C)} {cols : List C} (h : cols.Nodup) : (keptCols relevant cols).Nodup := by
  cases relevant with
  | none => exact h
  | some fs => exact h.filter _

theorem regFeats_mem {d : Nat} {pc nc : List C} {obs : List ((C → K) × (C → K))} {c : C} (h : c ∈ regFeats d pc nc obs) : c ∈ pc :=
  (List.mem_filter.mp (List.mem_filter.mp h).1).1

theorem regFeats_nodup {d : Nat} {pc nc : List C} {obs : List ((C → K) × (C → K))} (h : pc.Nodup) : (regFeats d pc nc obs).Nodup :=
  (h.filter _).filter _

theorem affList_congr {cs : List K} {fs : List C} {b : K} {v v' : C → K} (h : ∀ f ∈ fs, v f = v' f) :
    affList cs fs b v = affList cs fs b v' := by
  unfold affList
  rw [zipWith_congr_mem h]

theorem regData_rep {pc nc : List C} {obs : List ((C → K) × (C → K))} {o : (C → K) × (C → K)} (h : o ∈ obs) :
    ∃ o' ∈ regData pc nc obs, (∀ c ∈ pc, o'.1 c = o.1 c) ∧ ∀ c ∈ nc, o'.2 c = o.2 c := by
  obtain ⟨o', h', hk⟩ := dedupBy_rep (key := fun o : (C → K) × (C → K) => (pc.map o.1, nc.map o.2)) h
  simp only [Prod.mk.injEq] at hk
  refine ⟨o', h', ?_, ?_⟩
  · exact List.map_inj_left.mp hk.1
  · exact List.map_inj_left.mp hk.2

theorem collectEffects_ok {g : C → Except LinErr (Option (NEffect K))} {l : List C} {es : List (NEffect K)}
    (h : collectEffects g l = .ok es) : ∃ G : C → Option (NEffect K), es = l.filterMap G ∧ ∀ f ∈ l, g f = .ok (G f) := by
  classical
  refine ⟨fun f => match g f with | .ok e => e | .error _ => none, ?_, ?_⟩
  · induction l generalizing es with
    | nil => simp only [collectEffects, Except.ok.injEq] at h; simp [← h]
    | cons f fs ih =>
      simp only [collectEffects, Bind.bind, Except.bind] at h
      cases hg : g f with
      | error _ => rw [hg] at h; simp at h
      | ok e =>
        rw [hg] at h
        dsimp only at h
        cases hc : collectEffects g fs with
        | error _ => rw [hc] at h; simp at h
        | ok es' =>
          rw [hc] at h
          simp only [pure, Except.pure, Except.ok.injEq] at h
          rw [← h, ih hc, List.filterMap_cons, hg]
          cases e <;> simp
  · induction l generalizing es with
    | nil => simp
    | cons f fs ih =>
      simp only [collectEffects, Bind.bind, Except.bind] at h
      cases hg : g f with
      | error _ => rw [hg] at h; simp at h
      | ok e =>
        rw [hg] at h
        dsimp only at h
        cases hc : collectEffects g fs with
        | error _ => rw [hc] at h; simp at h
        | ok es' =>
          intro f' hf'
          rcases List.mem_cons.mp hf' with rfl | hf'
          · simp [hg]
          · exact ih hc f' hf'

/-- The column names and expressions are as the learner builds them. -/
structure ColumnSetup (colExp : C → NExp K) (fname : C → String) (prevCols nextCols : List C) : Prop where
  prevNodup : prevCols.Nodup
  nextNodup : nextCols.Nodup
  expInj : ∀ a ∈ prevCols, ∀ b ∈ prevCols, colExp a = colExp b → a = b
  notDummy : ∀ c ∈ prevCols, colExp c ≠ dummy
  isVar : ∀ f ∈ nextCols, colExp f = .var (fname f)
  nameInj : ∀ a ∈ nextCols, ∀ b ∈ nextCols, fname a = fname b → a = b

theorem fits_unchanged {colExp : C → NExp K} {fname : C → String} {f : C} {pc : List C} {data : List ((C → K) × K)} (hf : f ∈ pc)
    (hv : colExp f = .var (fname f)) (h : ∀ p ∈ data, p.2 = p.1 f) : EffectFits colExp fname f pc data none := by
  refine ⟨by simp, [1], [f], 0, by simpa using hf, ?_, ?_⟩
  · intro p hp; simp [affList, h p hp]
  · intro x; simp [affList, effValue, colVal, hv, NExp.eval]

theorem effects_fit {R : RegLib K C} (hR : RegContract R) {d : Nat} (hd : d ≤ 10) {colExp : C → NExp K} {fname : C → String}
    {relevant : Option (List C)} {prevCols nextCols : List C} {obs : List ((C → K) × (C → K))}
    (hs : ColumnSetup colExp fname prevCols nextCols)
    (hp : ∀ f ∈ keptCols relevant nextCols, RegPrintable d (regFeats d (keptCols relevant prevCols) (keptCols relevant nextCols) obs) f
      (R.solve (regFeats d (keptCols relevant prevCols) (keptCols relevant nextCols) obs)
        (regLabels (keptCols relevant prevCols) (keptCols relevant nextCols) obs f)))
    (hrel : relevant ≠ some []) (hobs : obs ≠ []) {effs : List (NEffect K)}
    (h : constructEffects R d false colExp fname relevant prevCols nextCols obs = .ok effs)
    (hsd : ∀ e ∈ effs, e.op ≠ .scaleDown) :
    ∃ G : C → Option (NEffect K), effs = (keptCols relevant nextCols).filterMap G ∧
      ∀ f ∈ keptCols relevant nextCols, EffectFits colExp fname f (keptCols relevant prevCols) (obs.map fun o => (o.1, o.2 f)) (G f) := by
  unfold constructEffects at h
  rw [if_neg hrel, if_neg hobs] at h
  dsimp only at h
  have hpn : (keptCols relevant prevCols).Nodup := keptCols_nodup hs.prevNodup
  have hpm : ∀ c ∈ keptCols relevant prevCols, c ∈ prevCols := fun c hc => keptCols_mem hc
  have hnm : ∀ c ∈ keptCols relevant nextCols, c ∈ nextCols := fun c hc => keptCols_mem hc
  revert hp h hpn hpm hnm
  generalize keptCols relevant prevCols = pc
  generalize keptCols relevant nextCols = nc
  intro hp h hpn hpm hnm
  by_cases h1 : (regData pc nc obs).length = 1
  · rw [if_pos h1] at h
    simp only [Except.ok.injEq] at h
    subst h
    obtain ⟨o0, obs', rfl⟩ := List.exists_cons_of_ne_nil hobs
    refine ⟨fun f => if f ∈ pc ∧ o0.1 f = o0.2 f then none else some ⟨.assign, fname f, .num (o0.2 f)⟩, rfl, fun f hf => ?_⟩
    dsimp only
    obtain ⟨q, hq⟩ := List.length_eq_one_iff.mp h1
    have hall : ∀ o ∈ o0 :: obs', (∀ c ∈ pc, o.1 c = o0.1 c) ∧ ∀ c ∈ nc, o.2 c = o0.2 c := by
      have hone : ∀ o ∈ o0 :: obs', (∀ c ∈ pc, q.1 c = o.1 c) ∧ ∀ c ∈ nc, q.2 c = o.2 c := by
        intro o ho
        obtain ⟨o', h1, h2⟩ := regData_rep (pc := pc) (nc := nc) ho
        rw [hq, List.mem_singleton] at h1
        subst h1
        exact h2
      intro o ho
      have a := hone o ho
      have b := hone o0 (by simp)
      exact ⟨fun c hc => (a.1 c hc).symm.trans (b.1 c hc), fun c hc => (a.2 c hc).symm.trans (b.2 c hc)⟩
    by_cases hc : f ∈ pc ∧ o0.1 f = o0.2 f
    · rw [if_pos hc]
      refine fits_unchanged hc.1 (hs.isVar f (hnm f hf)) ?_
      intro p hp'
      obtain ⟨o, ho, rfl⟩ := List.mem_map.mp hp'
      simp only
      rw [(hall o ho).2 f hf, ← hc.2, (hall o ho).1 f hc.1]
    · rw [if_neg hc]
      refine ⟨by rintro x ⟨rfl⟩; rfl, [], [], o0.2 f, by simp, ?_, fun x => by simp [affList, effValue, NEffect.newValue, NExp.eval]⟩
      intro p hp'
      obtain ⟨o, ho, rfl⟩ := List.mem_map.mp hp'
      simp [affList, (hall o ho).2 f hf]
  · rw [if_neg h1] at h
    obtain ⟨G, hG, hg⟩ := collectEffects_ok h
    refine ⟨G, hG, fun f hf => ?_⟩
    have hgf := hg f hf
    by_cases c1 : f ∉ pc
    · rw [if_pos c1] at hgf; simp at hgf
    rw [if_neg c1] at hgf
    by_cases c2 : (obs.all fun o => decide (o.1 f = o.2 f)) = true
    · rw [if_pos c2] at hgf
      simp only [Except.ok.injEq] at hgf
      rw [← hgf]
      refine fits_unchanged (by simpa using c1) (hs.isVar f (hnm f hf)) ?_
      intro p hp'
      obtain ⟨o, ho, rfl⟩ := List.mem_map.mp hp'
      have := List.all_eq_true.mp c2 o ho
      simpa using (of_decide_eq_true this).symm
    · rw [if_neg c2] at hgf
      by_cases c3 : regFeats d pc nc obs = []
      · rw [if_pos c3] at hgf; simp at hgf
      rw [if_neg c3] at hgf
      have hdat : regLabels pc nc obs f ≠ [] := by
        obtain ⟨o0, obs', rfl⟩ := List.exists_cons_of_ne_nil hobs
        obtain ⟨o', h1, -⟩ := regData_rep (pc := pc) (nc := nc) (List.mem_cons_self (a := o0) (l := obs'))
        intro e
        have : (o'.1, o'.2 f) ∈ regLabels pc nc (o0 :: obs') f := List.mem_map.mpr ⟨o', h1, rfl⟩
        rw [e] at this
        simp at this
      obtain ⟨t, cs, fs, b, hfs, hdata, hval⟩ := solveLinear_fits hR hd (regFeats_nodup hpn)
        (fun a ha b hb => hs.expInj a (hpm a (regFeats_mem ha)) b (hpm b (regFeats_mem hb)))
        (fun c hc => hs.notDummy c (hpm c (regFeats_mem hc))) (hs.isVar f (hnm f hf)) hdat (hp f hf) hgf
        (fun x hx => hsd x (by rw [hG]; exact List.mem_filterMap.mpr ⟨f, hf, hx⟩))
      refine ⟨t, cs, fs, b, fun g hg => regFeats_mem (hfs g hg), ?_, hval⟩
      intro p hp'
      obtain ⟨o, ho, rfl⟩ := List.mem_map.mp hp'
      obtain ⟨o', h1, h2, h3⟩ := regData_rep (pc := pc) (nc := nc) ho
      have := hdata (o'.1, o'.2 f) (List.mem_map.mpr ⟨o', h1, rfl⟩)
      simp only at this ⊢
      rw [← h3 f hf, this]
      exact affList_congr fun g hg => h2 g (regFeats_mem (hfs g hg))

/-- The collected effects act on each fluent as its own effect. -/
theorem apply_filterMap {fname : C → String} {G : C → Option (NEffect K)} {nc : List C} (hnd : nc.Nodup)
    (ht : ∀ f ∈ nc, ∀ e, G f = some e → e.target = fname f) (hinj : ∀ a ∈ nc, ∀ b ∈ nc, fname a = fname b → a = b)
    {f : C} (hf : f ∈ nc) (x : String → K) :
    applyNumeric (nc.filterMap G) x (fname f) = effValue fname f (G f) x := by
  unfold applyNumeric
  induction nc with
  | nil => simp at hf
  | cons g nc ih =>
    have hnd' := List.nodup_cons.mp hnd
    rw [List.filterMap_cons]
    by_cases hgf : g = f
    · subst hgf
      cases hG : G g with
      | some e =>
        simp only
        rw [List.find?_cons_of_pos (by simp [ht g (by simp) e hG])]
        rfl
      | none =>
        simp only
        have : (nc.filterMap G).find? (fun e => e.target == fname g) = none := by
          rw [List.find?_eq_none]
          intro e he hte
          obtain ⟨a, ha, hae⟩ := List.mem_filterMap.mp he
          have h1 := ht a (by simp [ha]) e hae
          have h2 : e.target = fname g := by simpa using hte
          have := hinj a (by simp [ha]) g (by simp) (h1.symm.trans h2)
          exact hnd'.1 (this ▸ ha)
        rw [this]
        rfl
    · have hf' : f ∈ nc := by
        rcases List.mem_cons.mp hf with rfl | h
        · exact absurd rfl hgf
        · exact h
      have ih' := ih hnd'.2 (fun a ha => ht a (by simp [ha])) (fun a ha b hb => hinj a (by simp [ha]) b (by simp [hb])) hf'
      cases hG : G g with
      | none => simpa using ih'
      | some e =>
        simp only
        rw [List.find?_cons_of_neg]
        · exact ih'
        · have := ht g (by simp) e hG
          intro hh
          have h2 : e.target = fname f := by simpa using hh
          exact hgf (hinj g (by simp) f hf (this.symm.trans h2))

theorem apply_filterMap_other {fname : C → String} {G : C → Option (NEffect K)} {nc : List C}
    (ht : ∀ f ∈ nc, ∀ e, G f = some e → e.target = fname f) {n : String} (hn : n ∉ nc.map fname) (x : String → K) :
    applyNumeric (nc.filterMap G) x n = x n := by
  unfold applyNumeric
  have : (nc.filterMap G).find? (fun e => e.target == n) = none := by
    rw [List.find?_eq_none]
    intro e he hte
    obtain ⟨a, ha, hae⟩ := List.mem_filterMap.mp he
    have h1 := ht a ha e hae
    have h2 : e.target = n := by simpa using hte
    exact hn (List.mem_map.mpr ⟨a, ha, h1.symm.trans h2⟩)
  rw [this]

end Model
