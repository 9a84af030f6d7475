import Verif.Props.IncHull

/-! C77: the membership test of the incremental convex hull learner, and its copy. -/
namespace Props
open Model Spec

section
variable {K : Type} [Field K] [LinearOrder K] [IsStrictOrderedRing K] [FloorRing K]
variable {C : Type} [DecidableEq C]

/-- The values of the columns `left` are in the hull of the rows: exactly, for one column; up to `eps` in the inequality of each facet,
for several. -/
def NearHull (L : NumLib K C) (eps : K) (left : List C) (rows : List (C → K)) (x : C → K) : Prop :=
  (left.length = 1 ∧ InHull left rows x) ∨
    (2 ≤ left.length ∧ ∃ h, L.qhull left.length (rows.map (rowVec left)) = some h ∧ ∀ f ∈ h.facets, (f.1 ⬝ᵥ rowVec left x) ≤ f.2 + eps)

theorem spanned_eye {L : NumLib K C} {d : Nat} {st : IncHull K C} {left : List C} (hl : left ≠ []) (x : C → K) :
    st.spanned L d ((eyeVecs left.length).map List.ofFn) left x = true := by
  have hnil : (eyeVecs left.length : List (Fin left.length → K)).map List.ofFn ≠ [] := by
    intro e
    have := congrArg List.length e
    simp [eyeVecs_length] at this
    exact hl this
  obtain ⟨b, bs, e⟩ : ∃ b bs, (eyeVecs left.length : List (Fin left.length → K)).map List.ofFn = b :: bs := List.exists_cons_of_ne_nil hnil
  have hbl : b.length = left.length := by
    have : b ∈ (eyeVecs left.length : List (Fin left.length → K)).map List.ofFn := by rw [e]; simp
    obtain ⟨v, _, rfl⟩ := List.mem_map.mp this
    simp
  rw [e]
  unfold IncHull.spanned
  dsimp only
  rw [if_neg (by rw [hbl]; simp), decide_eq_true_eq, ← e, map_toVec_ofFn]
  exact spanned_of_span (epsOf_nonneg d) (projOn_eye _)

theorem spanned_line {L : NumLib K C} {d : Nat} {st : IncHull K C} {c : C} {b : K} (hb : b ≠ 0) (x : C → K) :
    st.spanned L d [[b]] [c] x = true := by
  unfold IncHull.spanned
  dsimp only
  rw [if_neg (by simp), decide_eq_true_eq]
  refine spanned_of_span (epsOf_nonneg d) ?_
  funext i
  have : i = 0 := Subsingleton.elim (α := Fin 1) i 0
  rw [this]
  simp [projOn, dotProduct, toVec]
  field_simp

/-- The test, in a state that has the fields of its data. -/
theorem inv_contains {L : NumLib K C} {d : Nat} {colExp : C → NExp K} {cols : List C} {margin : K} {st : IncHull K C}
    (hnd : cols.Nodup) (hi : IncInv L d margin true colExp cols st) (hne : st.rows ≠ []) (h2 : 2 ≤ cols.length) (x : C → K) :
    ∃ b, st.contains L d cols x = .ok b ∧
      (b = true ↔ (∃ r ∈ st.rows, ∀ c ∈ cols, r c = x c) ∨
        ∃ left conds, removeDependencies L d colExp cols st.rows = (some left, conds) ∧ NearHull L (epsOf K d) left st.rows x) := by
  have hd := hi.deps hne
  unfold IncHull.contains
  rw [if_neg (by rw [hi.cols_eq]; simp), hi.cols_eq, hi.nodup]
  have hall : cols.all (fun c => decide (c ∈ cols)) = true := by simp
  rw [hall, Bool.true_and, Bool.false_or]
  by_cases hex : ∃ r ∈ st.rows, ∀ c ∈ cols, r c = x c
  · rw [if_pos (by rw [List.any_eq_true]; obtain ⟨r, hr, e⟩ := hex; exact ⟨r, hr, agree_iff.mpr e⟩)]
    exact ⟨true, rfl, by simp only [true_iff]; exact .inl hex⟩
  · rw [if_neg (by rw [List.any_eq_true]; rintro ⟨r, hr, e⟩; exact hex ⟨r, hr, agree_iff.mp e⟩)]
    cases ha : st.aff with
    | none =>
      rw [hi.flat ha]
      refine ⟨false, rfl, ?_⟩
      simp only [Bool.false_eq_true, false_iff, not_or]
      refine ⟨hex, ?_⟩
      rintro ⟨left, conds, h, _⟩
      rw [hd, ha] at h
      simp at h
    | some left =>
      rw [ha] at hd
      have hlne : left ≠ [] := left_ne_nil hnd (by rintro rfl; simp at h2) hd
      have hlpos : 0 < left.length := List.length_pos_of_ne_nil hlne
      have hiff : ∀ P : Prop, (NearHull L (epsOf K d) left st.rows x ↔ P) →
          (((∃ r ∈ st.rows, ∀ c ∈ cols, r c = x c) ∨
            ∃ left conds, removeDependencies L d colExp cols st.rows = (some left, conds) ∧ NearHull L (epsOf K d) left st.rows x) ↔ P) := by
        intro P hP
        constructor
        · rintro (h | ⟨l, cs, h, hn⟩)
          · exact absurd h hex
          · rw [hd] at h
            cases h
            exact hP.mp hn
        · intro h; exact .inr ⟨left, _, hd, hP.mpr h⟩
      by_cases h2 : 2 ≤ left.length
      · obtain ⟨f1, f2, f3, h, f4, f5⟩ := hi.full left ha h2
        rw [f1]
        dsimp only
        rw [if_neg (by rw [spanned_eye hlne]; simp), if_neg (by
          intro e
          have := congrArg List.length e
          simp [eyeVecs_length] at this
          exact hlne this), f3, if_neg (by simp), if_pos (by rw [List.length_map, eyeVecs_length]; exact h2), f4]
        dsimp only
        refine ⟨_, rfl, ?_⟩
        have hshift : st.shift left x = rowVec left x := by
          unfold IncHull.shift
          rw [if_neg (by omega), if_pos f2]
        have hvec : (toVec left.length (((eyeVecs left.length).map List.ofFn).map fun b => st.shift left x ⬝ᵥ toVec left.length b) : Fin left.length → K)
            = rowVec left x := by
          rw [hshift, List.map_map]
          funext i
          unfold toVec
          have hi' : (i : Nat) < (eyeVecs left.length : List (Fin left.length → K)).length := by rw [eyeVecs_length]; exact i.2
          rw [List.getD_eq_getElem?_getD, List.getElem?_eq_getElem (by simpa using hi'), Option.getD_some, List.getElem_map]
          simp only [Function.comp_apply]
          have hd' := dot_eye (rowVec left x) ⟨i, hi'⟩
          have e : toVec left.length (List.ofFn ((eyeVecs left.length : List (Fin left.length → K)).get ⟨i, hi'⟩)) = _ := toVec_ofFn _
          unfold toVec at e
          simp only [List.get_eq_getElem] at e hd'
          rw [e, hd']
          rfl
        rw [hvec, hiff _ Iff.rfl]
        rw [List.all_eq_true]
        simp only [decide_eq_true_eq, sub_le_iff_le_add']
        constructor
        · intro hf
          exact .inr ⟨h2, h, approxHull_plain f5, fun f hf' => by have := hf f hf'; linarith⟩
        · rintro (⟨h1, _⟩ | ⟨_, h', hq, hf⟩)
          · omega
          · rw [approxHull_plain f5] at hq
            cases hq
            intro f hf'
            have := hf f hf'
            linarith
      · obtain ⟨c, rfl⟩ := List.length_eq_one_iff.mp (show left.length = 1 by omega)
        obtain ⟨b, hb, f1, f2⟩ := hi.line [c] ha rfl
        have hb0 : b ≠ 0 := by rcases hb with rfl | rfl <;> simp
        obtain ⟨r0, rs, hrows⟩ := List.exists_cons_of_ne_nil hne
        have hfirst : firstRow [c] st.rows = fun _ => r0 c := by
          rw [hrows]
          funext i
          have : i = 0 := Subsingleton.elim (α := Fin 1) i 0
          rw [this]; rfl
        have hb1 : toVec [c].length [b] = fun _ => b := by
          funext i
          have : i = 0 := Subsingleton.elim (α := Fin 1) i 0
          rw [this]; rfl
        have hdot : ∀ u v : Fin [c].length → K, u ⬝ᵥ v = u 0 * v 0 := by
          intro u v
          exact Fin.sum_univ_one (fun i => u i * v i)
        rw [f1]
        dsimp only
        rw [if_neg (by rw [spanned_line hb0]; simp), if_neg (by simp), f2, if_neg (by simp), if_neg (by simp)]
        refine ⟨_, rfl, ?_⟩
        have hshift : st.shift [c] x = rowVec [c] x - firstRow [c] st.rows := by
          unfold IncHull.shift
          rw [if_pos (show [c].length = 1 from rfl)]
        have hproj : ((st.rows.map (rowVec [c])).flatMap fun p => [[b]].map fun e => (p - firstRow [c] st.rows) ⬝ᵥ toVec [c].length e)
            = st.rows.map fun r => (r c - r0 c) * b := by
          rw [hfirst, List.flatMap_map, List.map_eq_flatMap]
          apply congrArg₂ _ _ rfl
          funext r
          simp only [List.map_cons, List.map_nil, hdot, hb1]
          rfl
        rw [hproj, hshift, hfirst]
        simp only [List.map_cons, List.map_nil, List.all_cons, List.all_nil, Bool.and_true, hdot, hb1, decide_eq_true_eq]
        rw [between_iff (by simpa using hne), hiff _ Iff.rfl]
        have hval : ((rowVec [c] x - fun _ => r0 c : Fin [c].length → K)) 0 = x c - r0 c := rfl
        rw [hval]
        have hn : NearHull L (epsOf K d) [c] st.rows x ↔ InHull [c] st.rows x := by
          unfold NearHull
          simp
        rw [hn, inHull_single hne, between_iff (by simpa using hne)]
        simp only [List.mem_map, exists_exists_and_eq_and]
        rcases hb with rfl | rfl
        · simp
        · simp only [mul_neg, mul_one, neg_le_neg_iff, sub_le_sub_iff_right]
          exact and_comm

/-- **C77.** After any series of observations (without an exception), the membership test gives an answer, and it is true exactly when
the point was observed or the values of the independent columns are in the hull of the observations, up to the tolerance of the facets. -/
theorem C77_membership {L : NumLib K C} {d : Nat} {margin : K} {colExp : C → NExp K} {cols : List C} {pts : List (C → K)}
    (S : IncSetup L d colExp cols (distinctRows cols [] pts)) (h2 : 2 ≤ cols.length) {st : IncHull K C}
    (hrun : observe L d margin true colExp cols (IncHull.init cols none) pts = (st, false)) (x : C → K) :
    ∃ b, st.contains L d cols x = .ok b ∧
      (b = true ↔ (∃ r ∈ pts, ∀ c ∈ cols, r c = x c) ∨
        ∃ left conds, removeDependencies L d colExp cols (distinctRows cols [] pts) = (some left, conds) ∧
          NearHull L (1 / 10 ^ d) left (distinctRows cols [] pts) x) := by
  obtain ⟨_, g3⟩ := C76_data L d margin true colExp cols pts
  rw [hrun] at g3
  have g3 : st.rows = distinctRows cols [] pts := g3
  have hstep : IncStep L d colExp cols (distinctRows cols [] pts) :=
    { norm := S.norm, norm1 := S.norm1, fit := S.hull.fit, inj := S.inj, two := h2, nodup := S.hull.nodup, complete := S.complete, separated := S.hull.separated }
  have hi : IncInv L d margin true colExp cols st := observe_inv pts IncInv.init hstep hrun
  obtain ⟨b, hb, hiff⟩ := inv_contains S.hull.nodup hi (by rw [g3]; exact S.hull.nonempty) h2 x
  refine ⟨b, hb, hiff.trans ?_⟩
  rw [g3]
  refine or_congr ?_ Iff.rfl
  constructor
  · rintro ⟨r, hr, e⟩
    exact ⟨r, by simpa using distinctRows_sub pts [] r hr, e⟩
  · rintro ⟨r, hr, e⟩
    obtain ⟨r', hr', e'⟩ := distinctRows_cover (cols := cols) pts [] r hr
    exact ⟨r', hr', fun c hc => (e' c hc).trans (e c hc)⟩

/-- Constant data: the hull is the one point. -/
theorem inHull_const {cols : List C} {rows : List (C → K)} {x : C → K} (hc : ∀ c ∈ cols, isConst rows c = true)
    (hne : rows ≠ []) (hx : InHull cols rows x) : ∃ r ∈ rows, ∀ c ∈ cols, r c = x c := by
  obtain ⟨r0, rs, rfl⟩ := List.exists_cons_of_ne_nil hne
  refine ⟨r0, by simp, fun c hcc => ?_⟩
  have h1 := hc c hcc
  simp only [isConst, List.all_eq_true, decide_eq_true_eq] at h1
  obtain ⟨w, w1, w2, w3, w4⟩ := hx
  rw [w4 c hcc, comb_affine w1 (cs := []) (feats := []) (b := r0 c) (by
    intro r hr
    rcases List.mem_cons.mp hr with rfl | hr
    · simp
    · simpa using h1 r hr), w3]
  simp

/-- **C77, complete.** A point in the hull of the observations is always recognised. -/
theorem C77_accepts_hull {L : NumLib K C} {d : Nat} {margin : K} {colExp : C → NExp K} {cols : List C} {pts : List (C → K)}
    (S : IncSetup L d colExp cols (distinctRows cols [] pts)) (h2 : 2 ≤ cols.length) {st : IncHull K C}
    (hrun : observe L d margin true colExp cols (IncHull.init cols none) pts = (st, false)) {x : C → K}
    (hx : InHull cols pts x) : st.contains L d cols x = .ok true := by
  obtain ⟨b, hb, hiff⟩ := C77_membership S h2 hrun x
  rw [hb, hiff.mpr ?_]
  have hx' := inHull_distinct.mpr hx
  have hne := S.hull.nonempty
  cases hr : removeDependencies L d colExp cols (distinctRows cols [] pts) with
  | mk aff conds =>
    cases aff with
    | none =>
      left
      have hc : ∀ c ∈ cols, isConst (distinctRows cols [] pts) c = true := by
        have h := hr
        unfold removeDependencies at h
        dsimp only at h
        rw [if_neg (by push Not; exact ⟨hne, by omega⟩)] at h
        split_ifs at h with h3
        · intro c hc
          have e : cols.filter (isConst (distinctRows cols [] pts)) = cols :=
            (List.filter_sublist).eq_of_length (by omega)
          have := List.filter_eq_self.mp e c hc
          exact this
        · simp at h
      obtain ⟨r, hr, e⟩ := inHull_const hc hne hx'
      exact ⟨r, by simpa using distinctRows_sub pts [] r hr, e⟩
    | some left =>
      right
      refine ⟨left, conds, rfl, ?_⟩
      have hlsub := removeDependencies_sub hr
      have hlne : left ≠ [] := left_ne_nil S.hull.nodup (by rintro rfl; simp at h2) hr
      have hlpos : 0 < left.length := List.length_pos_of_ne_nil hlne
      have hin : InHull left (distinctRows cols [] pts) x := inHull_mono (fun c hc => hlsub.subset hc) hx'
      by_cases hl2 : 2 ≤ left.length
      · right
        refine ⟨hl2, ?_⟩
        have hstep : IncStep L d colExp cols (distinctRows cols [] pts) :=
          { norm := S.norm, norm1 := S.norm1, fit := S.hull.fit, inj := S.inj, two := h2, nodup := S.hull.nodup, complete := S.complete, separated := S.hull.separated }
        have hi : IncInv L d margin true colExp cols st := observe_inv pts IncInv.init hstep hrun
        obtain ⟨_, g3⟩ := C76_data L d margin true colExp cols pts
        rw [hrun] at g3
        have g3 : st.rows = distinctRows cols [] pts := g3
        have hd := hi.deps (by rw [g3]; exact hne)
        rw [g3, hr] at hd
        obtain ⟨_, _, _, h, _, f5⟩ := hi.full left (by simpa using (congrArg Prod.fst hd).symm) hl2
        rw [g3] at f5
        refine ⟨h, approxHull_plain f5, fun f hf => ?_⟩
        have := (S.hull.qhull.facets (approxHull_plain f5) (fun i => x (left.get i))).mpr (inHull_rowVec.mpr hin) f hf
        have he : (0 : K) ≤ 1 / 10 ^ d := by positivity
        exact this.trans (le_add_of_nonneg_right he)
      · exact .inl ⟨by omega, hin⟩

/-- **C77, agreement.** A state that satisfies the written precondition passes the test. -/
theorem C77_precondition_passes {L : NumLib K C} {d : Nat} {margin : K} {colExp : C → NExp K} {cols : List C} {pts : List (C → K)}
    (S : IncSetup L d colExp cols (distinctRows cols [] pts)) (h2 : 2 ≤ cols.length) {st : IncHull K C}
    (hrun : observe L d margin true colExp cols (IncHull.init cols none) pts = (st, false)) {cs : List (NCond K)}
    (hout : st.safeInequalities d colExp = .conds cs) {x : String → K} (hx : ∀ q ∈ cs, q.holds x) :
    st.contains L d cols (fun c => (colExp c).eval x) = .ok true :=
  C77_accepts_hull S h2 hrun ((C76_incremental_is_hull S hrun hout x).mp hx)

/-- **C77, copy.** A copy of the learner is equal to it. -/
theorem C77_copy {L : NumLib K C} {d : Nat} {margin : K} {colExp : C → NExp K} {cols : List C} {pts : List (C → K)}
    (S : IncSetup L d colExp cols (distinctRows cols [] pts)) (h2 : 2 ≤ cols.length) {st : IncHull K C}
    (hrun : observe L d margin true colExp cols (IncHull.init cols none) pts = (st, false)) :
    st.copy L margin true cols = (st, false) := by
  obtain ⟨_, g3⟩ := C76_data L d margin true colExp cols pts
  rw [hrun] at g3
  have g3 : st.rows = distinctRows cols [] pts := g3
  have hstep : IncStep L d colExp cols (distinctRows cols [] pts) :=
    { norm := S.norm, norm1 := S.norm1, fit := S.hull.fit, inj := S.inj, two := h2, nodup := S.hull.nodup, complete := S.complete, separated := S.hull.separated }
  have hi : IncInv L d margin true colExp cols st := observe_inv pts IncInv.init hstep hrun
  have hne : st.rows ≠ [] := by rw [g3]; exact S.hull.nonempty
  unfold IncHull.copy
  rw [if_neg (by push Not; exact ⟨hne, by rw [hi.cols_eq]; rintro rfl; simp at h2⟩)]
  dsimp only
  cases hh : st.hull with
  | none =>
    dsimp only
    rw [← hh]
  | some h0 =>
    cases ha : st.aff with
    | none =>
      have := hi.small (by rw [ha]; simp)
      rw [this] at hh; simp at hh
    | some left =>
      dsimp only
      have hl2 : 2 ≤ left.length := by
        by_contra hlt
        have := hi.small (by rw [ha]; simp; omega)
        rw [this] at hh; simp at hh
      obtain ⟨f1, f2, f3, h, f4, f5⟩ := hi.full left ha hl2
      rw [← ha]
      show IncHull.learnHull L margin true ({ st with hull := none } : IncHull K C) left = (st, false)
      have hok := learnHull_full_ok (st := { st with hull := none }) f1 f2 f5
      obtain ⟨hr, e1, e2⟩ := learnHull_full (st := { st with hull := none }) f1 f2 (Prod.ext rfl hok)
      have e1 : approxHull (L.qhull left.length) margin true (st.rows.map (rowVec left)) = some hr := e1
      rw [f5] at e1
      cases e1
      refine Prod.ext ?_ hok
      refine e2.trans ?_
      have : ∀ o, st.hull = o → st = { st with hull := o } := by rintro _ rfl; rfl
      exact (this _ f4).symm

end
/-! A concrete case: the triangle of C55, observed point by point, with a repetition. -/

/-- The library of the triangle: the regression finds constant columns, the norm is the sum of the absolute values. -/
def incLib : NumLib ℚ Bool where
  qhull := triLib.qhull
  fit := fun feats c rows => match rows with
    | [] => none
    | r :: rs => if rs.all fun r' => r' c = r c then some (feats.map fun _ => 0, r c) else none
  norm := fun v => ∑ i, |v i|

theorem incLib_fit : FitContract incLib := by
  intro feats c rows cs b h
  unfold incLib at h
  cases rows with
  | nil => simp at h
  | cons r rs =>
    dsimp only at h
    split_ifs at h with hc
    simp only [Option.some.injEq, Prod.mk.injEq] at h
    obtain ⟨rfl, rfl⟩ := h
    refine ⟨by simp, fun r' hr' => ?_⟩
    have hz : (List.zipWith (fun a f => a * r' f) (feats.map fun _ => (0 : ℚ)) feats).sum = 0 := by
      induction feats with
      | nil => rfl
      | cons a l ih => simpa using ih
    rw [hz, zero_add]
    rcases List.mem_cons.mp hr' with rfl | hr'
    · rfl
    · simpa using List.all_eq_true.mp hc r' hr'

theorem incLib_norm : NormContract incLib := by
  intro n v hv
  obtain ⟨i, hi⟩ := Function.ne_iff.mp hv
  have : 0 < ∑ i, |v i| := Finset.sum_pos' (fun i _ => abs_nonneg _) ⟨i, Finset.mem_univ _, abs_pos.mpr hi⟩
  exact this.ne'

theorem incLib_complete : ∀ pre, pre ≠ [] → pre <+: triRows → FitComplete incLib pre := by
  intro pre hne hpre feats c a b hfe hc h hfit
  have hp : pre = [fun _ => 0] ∨ pre = [fun _ => 0, fun c => if c then 1 else 0] ∨ pre = triRows := by
    have hm : pre ∈ triRows.inits := (List.mem_inits _ _).mpr hpre
    simp only [triRows, List.inits, List.map_cons, List.map_nil, List.mem_cons, List.not_mem_nil, or_false] at hm
    rcases hm with h | h | h | h
    · exact absurd h hne
    · exact .inl h
    · exact .inr (.inl h)
    · exact .inr (.inr h)
  have hzero : ∀ g : Bool → ℚ, g (!c) = 0 → (feats.map fun f => a f * g f).sum = 0 := by
    intro g hg
    have : ∀ f ∈ feats, a f * g f = 0 := by
      intro f hf
      have : f = !c := by
        cases f <;> cases c <;> first | rfl | exact absurd hf hc
      rw [this, hg, mul_zero]
    clear hfit h hc hfe
    induction feats with
    | nil => rfl
    | cons f fs ih =>
      rw [List.map_cons, List.sum_cons, this f (by simp), ih (fun f' hf' => this f' (by simp [hf'])), add_zero]
  have h0 := h (fun _ => 0) (by rcases hp with rfl | rfl | rfl <;> simp [triRows])
  rw [hzero (fun _ => 0) rfl, zero_add] at h0
  subst h0
  cases c with
  | true =>
    rcases hp with rfl | rfl | rfl
    · simp [incLib] at hfit
    all_goals
      have h1 := h (fun c => if c then 1 else 0) (by simp [triRows])
      rw [hzero (fun c => if c then 1 else 0) (by simp)] at h1
      simp at h1
  | false =>
    rcases hp with rfl | rfl | rfl
    · simp [incLib] at hfit
    · simp [incLib] at hfit
    · have h1 := h (fun c => if c then 0 else 1) (by simp [triRows])
      rw [hzero (fun c => if c then 0 else 1) (by simp)] at h1
      simp at h1

theorem incLib_fit_tri {feats : List Bool} {c : Bool} {cs : List ℚ} {b : ℚ} (h : incLib.fit feats c triRows = some (cs, b)) : False := by
  cases c <;> simp [incLib, triRows] at h

theorem inc_setup : IncSetup incLib 4 triExp [true, false] triRows where
  hull := { qhull := ⟨tri_contract.facets, tri_contract.vertices⟩
            fit := incLib_fit
            complete := incLib_complete _ (by simp [triRows]) (List.prefix_refl _)
            digits := tri_setup.digits
            nonempty := tri_setup.nonempty
            nodup := tri_setup.nodup
            noDummy := tri_setup.noDummy
            data := tri_setup.data
            fitPrint := fun _ _ _ _ h => (incLib_fit_tri h).elim
            facetPrint := tri_setup.facetPrint
            separated := tri_setup.separated }
  norm := incLib_norm
  norm1 := fun v => (Fin.sum_univ_one (fun i => |v i|) : ∑ i, |v i| = |v 0|)
  inj := by decide +kernel
  complete := incLib_complete

/-- The observations: the three corners, the second one twice. -/
def incPts : List (Bool → ℚ) := [fun _ => 0, fun c => if c then 1 else 0, fun c => if c then 1 else 0, fun c => if c then 0 else 1]

theorem inc_distinct : distinctRows [true, false] [] incPts = triRows := by
  simp [distinctRows, incPts, triRows]

theorem inc_run : (observe incLib 4 0 true triExp [true, false] (IncHull.init [true, false] none) incPts).2 = false ∧
    ((observe incLib 4 0 true triExp [true, false] (IncHull.init [true, false] none) incPts).1.safeInequalities 4 triExp =
      .conds [⟨.le, .mul (.var "(f)") (.num (-1)), .num 0⟩, ⟨.le, .mul (.var "(g)") (.num (-1)), .num 0⟩,
        ⟨.le, .add (.var "(f)") (.var "(g)"), .num 1⟩]) := by decide +kernel

/-- C76 applies: the point (1/2, 1/4) satisfies the precondition, so it is in the hull. -/
example : InHull [true, false] incPts (fun c => (triExp c).eval fun f => if f = "(f)" then 1/2 else 1/4) :=
  (C76_incremental_is_hull (by rw [inc_distinct]; exact inc_setup) (Prod.ext rfl inc_run.1) inc_run.2 _).mp (by decide +kernel)

/-- C77 applies: the same point passes the test; (1, 1) does not. -/
example : (observe incLib 4 0 true triExp [true, false] (IncHull.init [true, false] none) incPts).1.contains incLib 4 [true, false]
    (fun c => (triExp c).eval fun f => if f = "(f)" then 1/2 else 1/4) = .ok true :=
  C77_precondition_passes (by rw [inc_distinct]; exact inc_setup) (by decide) (Prod.ext rfl inc_run.1) inc_run.2 (by decide +kernel)

example : (observe incLib 4 0 true triExp [true, false] (IncHull.init [true, false] none) incPts).1.contains incLib 4 [true, false]
    (fun _ => 1) = .ok false := by decide +kernel

/-- **C77, limit: tolerance.** The point (1, 1/20000) passes the test although it is not in the hull, and the written precondition
rejects it. -/
theorem C77_limit_tolerance :
    (observe incLib 4 0 true triExp [true, false] (IncHull.init [true, false] none) incPts).1.contains incLib 4 [true, false]
      (fun c => if c then 1 else 1/20000) = .ok true ∧
    ¬ InHull [true, false] incPts (fun c => if c then 1 else 1/20000) := by
  refine ⟨by decide +kernel, fun h => ?_⟩
  have := (C76_incremental_is_hull (by rw [inc_distinct]; exact inc_setup) (Prod.ext rfl inc_run.1) inc_run.2
    (fun f => if f = "(f)" then 1 else 1/20000)).mpr (inHull_agree (by decide +kernel) h)
  revert this
  decide +kernel

/-- The observations (0, 5) and (1, 5): the second fluent is constant. -/
def flatPts : List (Bool → ℚ) := [fun c => if c then 0 else 5, fun c => if c then 1 else 5]

/-- **C77, limit: constant fluents.** The test ignores the fluents that were constant or that depended on others: after (0, 5) and
(1, 5) the point (1/2, 7) passes, although the written precondition says that the second fluent is 5. -/
theorem C77_limit_dependencies :
    (observe incLib 4 0 true triExp [true, false] (IncHull.init [true, false] none) flatPts).2 = false ∧
    (observe incLib 4 0 true triExp [true, false] (IncHull.init [true, false] none) flatPts).1.contains incLib 4 [true, false]
      (fun c => if c then 1/2 else 7) = .ok true ∧
    (∃ cs, (observe incLib 4 0 true triExp [true, false] (IncHull.init [true, false] none) flatPts).1.safeInequalities 4 triExp = .conds cs ∧
      (⟨.eq, .var "(g)", .num 5⟩ : NCond ℚ) ∈ cs) ∧
    ¬ InHull [true, false] flatPts (fun c => if c then 1/2 else 7) := by
  refine ⟨by decide +kernel, by decide +kernel, ⟨[⟨.le, .mul (.var "(f)") (.num (-1)), .num 0⟩, ⟨.le, .var "(f)", .num 1⟩, ⟨.eq, .var "(g)", .num 5⟩],
    by decide +kernel, by decide +kernel⟩, ?_⟩
  rintro ⟨w, w1, w2, w3, w4⟩
  obtain ⟨a, b, rfl⟩ : ∃ a b, w = [a, b] := by
    match w, w1 with
    | [a, b], _ => exact ⟨a, b, rfl⟩
  have h := w4 false (by simp)
  simp [flatPts] at h w3
  linarith

/-- **C77, limit: reset.** The features cannot be changed before there is a hull of two or more dimensions: an `AttributeError`. -/
theorem C77_limit_reset (L : NumLib ℚ Bool) (d : Nat) (margin : ℚ) (plain : Bool) (colExp : Bool → NExp ℚ) (rel : List Bool) :
    (IncHull.init [true, false] none : IncHull ℚ Bool).reset L d margin plain colExp rel = .error .attributeError ∧
    (observe incLib 4 0 true triExp [true, false] (IncHull.init [true, false] none) flatPts).1.reset L d margin plain colExp rel = .error .attributeError := by
  refine ⟨rfl, ?_⟩
  have : (observe incLib 4 0 true triExp [true, false] (IncHull.init [true, false] none) flatPts).1.hull = none := by
    have h : (observe incLib 4 0 true triExp [true, false] (IncHull.init [true, false] none) flatPts).1.hull.isNone = true := by decide +kernel
    simpa using h
  unfold IncHull.reset
  rw [this]

/-- **C77, limit: a point lost.** When an observation lacks a fluent, the column is dropped, and if the remaining values were
observed before, nothing at all changes. The precondition keeps the condition on the fluent that the last observation did not have. -/
theorem C77_limit_lost_point :
    ((observe incLib 4 0 true triExp [true, false] (IncHull.init [true, false] none) flatPts).1.add incLib 4 0 true triExp [true]
      (fun _ => 1)).1.cols = [true, false] := by decide +kernel

/-- **C77, limit: one relevant fluent.** With one relevant fluent the precondition is about the first column, whichever fluent is
relevant. -/
theorem C77_limit_relevant :
    (observe incLib 4 0 true triExp [true, false] (IncHull.init [true, false] (some [false])) flatPts).1.safeInequalities 4 triExp =
      .conds [⟨.ge, .var "(f)", .num 0⟩, ⟨.le, .var "(f)", .num 1⟩] := by decide +kernel

/-- **C77, missing fluents.** A point without a value for one of the stored columns never passes the membership test. -/
theorem C77_missing_column {K C : Type} [Field K] [LinearOrder K] [DecidableEq C] (L : NumLib K C) (d : Nat)
    (st : IncHull K C) (pc : List C) (x : C → K) (h : ∃ c ∈ st.cols, c ∉ pc) : st.contains L d pc x = .ok false := by
  unfold IncHull.contains
  rw [if_pos]
  obtain ⟨c, hc, hn⟩ := h
  rw [Bool.not_eq_true', List.all_eq_false]
  exact ⟨c, hc, by simpa using hn⟩

/-- The hypothesis is met: after `flatPts`, a point with the first fluent only. -/
example : (observe incLib 4 0 true triExp [true, false] (IncHull.init [true, false] none) flatPts).1.contains incLib 4 [true] (fun _ => 1) = .ok false :=
  C77_missing_column _ _ _ _ _ ⟨false, by decide +kernel, by decide⟩

/-- **C77, copy of a new learner.** The copy of a learner without observations is equal to it; the relevant fluents are kept. -/
theorem C77_copy_empty {K C : Type} [Field K] [LinearOrder K] [IsStrictOrderedRing K] [FloorRing K] [DecidableEq C] (L : NumLib K C)
    (margin : K) (plain : Bool) (cols : List C) (rel : Option (List C)) :
    (IncHull.init cols rel : IncHull K C).copy L margin plain cols = (IncHull.init cols rel, false) := by
  unfold IncHull.copy
  rw [if_pos (.inl rfl)]
  cases rel <;> rfl

/-- **C77, reset.** After the triangle, the learner is told that only the first fluent is relevant: the second one is ignored from then on. -/
theorem C77_reset :
    (match (observe incLib 4 0 true triExp [true, false] (IncHull.init [true, false] none) incPts).1.reset incLib 4 0 true triExp [true] with
      | .ok (st, raised) => decide (raised = false ∧ st.contains incLib 4 [true, false] (fun c => if c then 1/2 else 9) = .ok true ∧
          st.contains incLib 4 [true, false] (fun c => if c then 2 else 0) = .ok false)
      | .error _ => false) = true := by decide +kernel

/-- Points that are nearer to each other than the tolerance. -/
def closePts : List (Bool → ℚ) := [fun _ => 0, fun c => if c then 1/100000 else 1/50000]

/-- **C76, limit: close observations.** Two observations nearer to each other than the tolerance span nothing: the action is reported as
not safe. A third, distant one gives a base and a precondition. -/
theorem C76_limit_close :
    (observe incLib 4 0 true triExp [true, false] (IncHull.init [true, false] none) closePts).1.safeInequalities 4 triExp = .notSafe ∧
    ((observe incLib 4 0 true triExp [true, false] (IncHull.init [true, false] none) (closePts ++ [fun c => if c then 1 else 0])).1.safeInequalities
      4 triExp ≠ .notSafe) := by
  constructor <;> decide +kernel

/-- **C77, dropped fluents.** After (0, 0), (1, 0) and (2, 1), an observation of 4 without the second fluent drops the column, and the
membership test is about the first one only (whatever Qhull answered before). -/
theorem C77_dropped_column :
    let lib : NumLib ℚ Bool := { incLib with qhull := fun _ _ => some ⟨[], [0], []⟩ }
    let st := (observe lib 4 0 true triExp [true, false] (IncHull.init [true, false] none)
      [fun _ => 0, fun c => if c then 1 else 0, fun c => if c then 2 else 1]).1.add lib 4 0 true triExp [true] (fun _ => 4)
    st.2 = false ∧ st.1.cols = [true] ∧ st.1.contains lib 4 [true, false] (fun c => if c then 3 else 9) = .ok true ∧
      st.1.contains lib 4 [true] (fun _ => 5) = .ok false := by
  decide +kernel

end Props
