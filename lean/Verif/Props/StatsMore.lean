import Verif.Props.StatsEff
import Verif.Props.Stats

/-! C67: evaluation of joint actions and its export; C68: the numeric error; C69: the statistics manager. -/
namespace Props
open Model Spec

section ma
variable {names : List String} {exec : State → List Call → Option State} {cs : List (State × List Call × State)} {a b : String}

/-- The joint actions that are measured: all of their actions were learned and the learned model can execute them. Each with the
predicted state. -/
def measured (names : List String) (exec : State → List Call → Option State) (cs : List (State × List Call × State)) :
    List (List Call × State × State) :=
  cs.filterMap fun c => if c.2.1.all (fun x => x.name ∈ names) then (exec c.1 c.2.1).map (fun s => (c.2.1, c.2.2, s)) else none

/-- How often an action occurs in a joint action. -/
def occurrences (a : String) (j : List Call) : ℕ := j.countP fun x => x.name = a

/-- Sum over the measured joint actions, each weighted by the occurrences of the action. -/
def weighted (a : String) (f : State → State → ℕ) (ms : List (List Call × State × State)) : ℕ :=
  (ms.map fun m => occurrences a m.1 * f m.2.1 m.2.2).sum

theorem incr_joint (j : List Call) (x y z : ℕ) :
    incrOf a (j.map fun c => (c.name, x, y, z)) = List.replicate (occurrences a j) (a, x, y, z) := by
  induction j with
  | nil => rfl
  | cons c j ih =>
    rw [List.map_cons]
    unfold occurrences at ih ⊢
    by_cases h : c.name = a
    · rw [incrOf_cons_pos h, ih, List.countP_cons_of_pos (by simpa using h), List.replicate_succ, h]
    · rw [incrOf_cons_neg h, ih, List.countP_cons_of_neg (by simpa using h)]

theorem maFold_spec (cs : List (State × List Call × State)) (k : Counts) :
    cs.foldl (maEffStep names exec) k = k.addAll ((measured names exec cs).flatMap fun m =>
      m.1.map fun c => (c.name, (m.2.1 ∩ m.2.2).card, (m.2.2 \ m.2.1).card, (m.2.1 \ m.2.2).card)) := by
  induction cs generalizing k with
  | nil => rfl
  | cons c cs ih =>
    rw [List.foldl_cons, ih]
    unfold measured maEffStep
    by_cases h : c.2.1.any (fun a => a.name ∉ names)
    · rw [if_pos h, List.filterMap_cons_none]
      rw [if_neg]
      intro h'
      obtain ⟨x, hx, hx'⟩ := List.any_eq_true.mp h
      have := List.all_eq_true.mp h' x hx
      simp at hx' this
      exact hx' this
    · rw [if_neg h]
      have hall : c.2.1.all (fun x => x.name ∈ names) = true := by
        rw [List.all_eq_true]
        intro x hx
        by_contra hne
        exact h (List.any_eq_true.mpr ⟨x, hx, by simpa using hne⟩)
      cases he : exec c.1 c.2.1 with
      | none => rw [List.filterMap_cons_none (by rw [if_pos hall, he]; rfl)]
      | some s =>
        rw [List.filterMap_cons_some (b := (c.2.1, c.2.2, s)) (by rw [if_pos hall, he]; rfl), List.flatMap_cons, ← Counts.addAll_append]
        dsimp only
        congr 1
        unfold Counts.addAll
        rw [List.foldl_map]

theorem incr_flat (f : List Call × State × State → ℕ × ℕ × ℕ) (ms : List (List Call × State × State)) :
    incrOf a (ms.flatMap fun m => m.1.map fun c => (c.name, f m)) = ms.flatMap fun m => List.replicate (occurrences a m.1) (a, f m) := by
  unfold incrOf
  rw [List.filter_flatMap]
  congr 1; funext m
  exact incr_joint m.1 (f m).1 (f m).2.1 (f m).2.2

theorem sum_flat (g : State → State → ℕ) (h : String × ℕ × ℕ × ℕ → ℕ) (f : List Call × State × State → ℕ × ℕ × ℕ)
    (hf : ∀ m, h (a, f m) = g m.2.1 m.2.2) (ms : List (List Call × State × State)) :
    ((ms.flatMap fun m => List.replicate (occurrences a m.1) (a, f m)).map h).sum = weighted a g ms := by
  induction ms with
  | nil => rfl
  | cons m ms ih =>
    unfold weighted at ih ⊢
    rw [List.flatMap_cons, List.map_append, List.sum_append, ih, List.map_cons, List.sum_cons, List.map_replicate, hf,
      List.sum_replicate]; rfl

/-- The value reported for given hits, false alarms and misses. -/
def reportedPrecision (hits wrong : ℕ) : ℚ := if hits = 0 then (if wrong = 0 then 1 else 0) else (hits : ℚ) / (hits + wrong)
def reportedRecall (hits missed : ℕ) : ℚ := if hits = 0 then 0 else (hits : ℚ) / (hits + missed)

/-- **C67.** The effects of an action of a multi-agent model are judged by the complete states after the measured joint actions in
which it occurs: common, wrongly predicted and missed facts, summed over its occurrences. -/
theorem C67_joint_metric :
    let k := maEffCounts names exec cs
    let ms := measured names exec cs
    ((∃ m ∈ ms, 0 < occurrences a m.1) →
      k.precision a = some (reportedPrecision (weighted a (fun t s => (t ∩ s).card) ms) (weighted a (fun t s => (s \ t).card) ms)) ∧
      k.recall a = some (reportedRecall (weighted a (fun t s => (t ∩ s).card) ms) (weighted a (fun t s => (t \ s).card) ms))) ∧
    ((∀ m ∈ ms, occurrences a m.1 = 0) → k.precision a = none ∧ k.recall a = none) := by
  dsimp only
  unfold maEffCounts
  rw [maFold_spec]
  obtain ⟨h1, h2, h3⟩ := Counts.addAll_spec ((measured names exec cs).flatMap fun m =>
      m.1.map fun c => (c.name, (m.2.1 ∩ m.2.2).card, (m.2.2 \ m.2.1).card, (m.2.1 \ m.2.2).card)) Counts.zero a
  have hi := incr_flat (a := a) (fun m => ((m.2.1 ∩ m.2.2).card, (m.2.2 \ m.2.1).card, (m.2.1 \ m.2.2).card)) (measured names exec cs)
  rw [hi] at h1 h2 h3
  rw [sum_flat (fun t s => (t ∩ s).card) (fun r => r.2.1) (fun m => ((m.2.1 ∩ m.2.2).card, (m.2.2 \ m.2.1).card, (m.2.1 \ m.2.2).card)) (fun _ => rfl)] at h1
  rw [sum_flat (fun t s => (s \ t).card) (fun r => r.2.2.1) (fun m => ((m.2.1 ∩ m.2.2).card, (m.2.2 \ m.2.1).card, (m.2.1 \ m.2.2).card)) (fun _ => rfl)] at h2
  rw [sum_flat (fun t s => (t \ s).card) (fun r => r.2.2.2) (fun m => ((m.2.1 ∩ m.2.2).card, (m.2.2 \ m.2.1).card, (m.2.1 \ m.2.2).card)) (fun _ => rfl)] at h3
  constructor
  · rintro ⟨m, hm, hpos⟩
    rw [if_neg (by
      rw [List.flatMap_eq_nil_iff]
      intro h
      have := h m hm
      rw [List.replicate_eq_nil_iff] at this
      omega)] at h1
    unfold Counts.precision Counts.recall
    rw [h1, h2, h3]
    simp only [Counts.zero, Option.getD_none, zero_add, Option.map_some]
    exact ⟨rfl, rfl⟩
  · intro hz
    rw [if_pos (by rw [List.flatMap_eq_nil_iff]; intro m hm; rw [hz m hm]; rfl)] at h1
    unfold Counts.precision Counts.recall
    rw [h1]
    exact ⟨rfl, rfl⟩

/-- **C67.** Actions that always occur together get the same values, however well each of them was learned. -/
theorem C67_shared_blame (h : ∀ m ∈ measured names exec cs, occurrences a m.1 = occurrences b m.1) :
    (maEffCounts names exec cs).precision a = (maEffCounts names exec cs).precision b ∧
    (maEffCounts names exec cs).recall a = (maEffCounts names exec cs).recall b := by
  have hw : ∀ f, weighted a f (measured names exec cs) = weighted b f (measured names exec cs) := by
    intro f; unfold weighted; congr 1
    exact List.map_congr_left (fun m hm => by rw [h m hm])
  obtain ⟨a1, a2⟩ := C67_joint_metric (names := names) (exec := exec) (cs := cs) (a := a)
  obtain ⟨b1, b2⟩ := C67_joint_metric (names := names) (exec := exec) (cs := cs) (a := b)
  by_cases hex : ∃ m ∈ measured names exec cs, 0 < occurrences a m.1
  · obtain ⟨x1, x2⟩ := a1 hex
    obtain ⟨y1, y2⟩ := b1 (by obtain ⟨m, hm, hp⟩ := hex; exact ⟨m, hm, by rw [← h m hm]; exact hp⟩)
    rw [x1, x2, y1, y2, hw, hw, hw]
    exact ⟨rfl, rfl⟩
  · push Not at hex
    obtain ⟨x1, x2⟩ := a2 (fun m hm => Nat.le_zero.mp (hex m hm))
    obtain ⟨y1, y2⟩ := b2 (fun m hm => by rw [← h m hm]; exact Nat.le_zero.mp (hex m hm))
    rw [x1, x2, y1, y2]
    exact ⟨rfl, rfl⟩

/-- **C67.** A model that predicts every measured state exactly is reported with precision 1, and with recall 1 unless all the
states after the action are empty, when the recall is 0. -/
theorem C67_exact_model (hex : ∀ m ∈ measured names exec cs, m.2.1 = m.2.2) {p r : ℚ}
    (hp : (maEffCounts names exec cs).precision a = some p) (hr : (maEffCounts names exec cs).recall a = some r) :
    p = 1 ∧ r = if ∀ m ∈ measured names exec cs, 0 < occurrences a m.1 → m.2.1 = ∅ then 0 else 1 := by
  obtain ⟨a1, a2⟩ := C67_joint_metric (names := names) (exec := exec) (cs := cs) (a := a)
  by_cases hoc : ∃ m ∈ measured names exec cs, 0 < occurrences a m.1
  · obtain ⟨x1, x2⟩ := a1 hoc
    rw [x1] at hp; rw [x2] at hr
    injection hp with hp; injection hr with hr
    have hz : ∀ f : State → State → ℕ, (∀ s, f s s = 0) → weighted a f (measured names exec cs) = 0 := by
      intro f hf; unfold weighted
      apply List.sum_eq_zero
      intro y hy
      obtain ⟨m, hm, rfl⟩ := List.mem_map.mp hy
      rw [hex m hm, hf]; simp
    rw [hz (fun t s => (s \ t).card) (by simp)] at hp
    rw [hz (fun t s => (t \ s).card) (by simp)] at hr
    have hw : weighted a (fun t s => (t ∩ s).card) (measured names exec cs) = 0 ↔
        ∀ m ∈ measured names exec cs, 0 < occurrences a m.1 → m.2.1 = ∅ := by
      unfold weighted
      rw [List.sum_eq_zero_iff]
      constructor
      · intro h m hm hpos
        have := h _ (List.mem_map.mpr ⟨m, hm, rfl⟩)
        rw [hex m hm] at this ⊢
        simpa [hpos.ne'] using this
      · intro h y hy
        obtain ⟨m, hm, rfl⟩ := List.mem_map.mp hy
        by_cases h0 : occurrences a m.1 = 0
        · rw [h0]; simp
        · rw [h m hm (Nat.pos_of_ne_zero h0)]; simp
    rw [← hp, ← hr]
    unfold reportedPrecision reportedRecall
    by_cases h0 : weighted a (fun t s => (t ∩ s).card) (measured names exec cs) = 0
    · rw [if_pos h0, if_pos h0, if_pos rfl, if_pos (hw.mp h0)]
      exact ⟨rfl, rfl⟩
    · have hq : ((weighted a (fun t s => (t ∩ s).card) (measured names exec cs) : ℕ) : ℚ) ≠ 0 := by exact_mod_cast h0
      rw [if_neg h0, if_neg h0, if_neg (fun k => h0 (hw.mpr k))]
      simp [hq]
  · push Not at hoc
    obtain ⟨x1, _⟩ := a2 (fun m hm => Nat.le_zero.mp (hoc m hm))
    rw [x1] at hp; simp at hp

/-- **C67.** No column is left empty without reason: the base export has a value under every column; the numeric one has too, in rows with
a numeric error; in rows without one exactly the two numeric columns are empty. -/
theorem C67_export_columns (r : PerfRow) (col : String) :
    (r.mse = none → (col ∈ PerfRow.keys r ↔ col ∈ semFields)) ∧
    (r.mse ≠ none → (col ∈ PerfRow.keys r ↔ col ∈ numFields)) ∧
    (r.mse = none → (col ∈ numFields ∧ col ∉ PerfRow.keys r ↔ col = "effects_mse" ∨ col = "epsilon_precision")) := by
  refine ⟨fun h => ?_, fun h => ?_, fun h => ?_⟩
  · simp only [PerfRow.keys, h, semFields]; simp; tauto
  · obtain ⟨v, hv⟩ := Option.ne_none_iff_exists'.mp h
    simp only [PerfRow.keys, hv, numFields]; simp; tauto
  · simp only [PerfRow.keys, h, numFields]; simp
    constructor
    · rintro ⟨h1, h2⟩; tauto
    · rintro (rfl | rfl) <;> decide

/-- Rows of both kinds exist: the row of an action, before and after its numeric error is filled in. -/
example : ∃ r r' : PerfRow, r.mse = none ∧ r'.mse ≠ none ∧ "effects_mse" ∉ PerfRow.keys r ∧ "effects_mse" ∈ PerfRow.keys r' := by
  have h (r : PerfRow) := C67_export_columns r "effects_mse"
  exact ⟨⟨"a", 1, "p", 1, 1, 1, 1, none⟩, ⟨"a", 1, "p", 1, 1, 1, 1, some 0⟩, rfl, by simp, ((h _).2.2 rfl |>.mpr (Or.inl rfl)).2, ((h _).2.1 (by simp)).mpr (by decide)⟩

/-- **C67.** The combined export of the multi-agent calculator fails with a ValueError as soon as there is one row to write: its
columns lack the two values of the effects. The export of the base class and of the numeric one never fail on the rows they are
given. -/
theorem C67_export (rows : List PerfRow) :
    (writeRows maFields (rows.map PerfRow.keys) = if rows = [] then .ok () else .error .valueError) ∧
    ((∀ r ∈ rows, r.mse = none) → writeRows semFields (rows.map PerfRow.keys) = .ok ()) ∧
    writeRows numFields (rows.map PerfRow.keys) = .ok () := by
  have hno : ∀ r : PerfRow, (PerfRow.keys r).all (fun x => maFields.contains x) = false := by
    intro r; unfold PerfRow.keys; rw [List.all_append]
    have : List.all ["learning_algorithm", "policy", "action_name", "num_trajectories", "precondition_precision",
      "precondition_recall", "effects_precision", "effects_recall"] (fun x => maFields.contains x) = false := by decide +kernel
    rw [this]; rfl
  have hyes : ∀ r : PerfRow, (PerfRow.keys r).all (fun x => numFields.contains x) = true := by
    intro r; unfold PerfRow.keys
    split_ifs
    · decide +kernel
    · decide +kernel
  have hsem : ∀ r : PerfRow, r.mse = none → (PerfRow.keys r).all (fun x => semFields.contains x) = true := by
    intro r hr; unfold PerfRow.keys
    rw [hr]; decide +kernel
  have hok : ∀ (fields : List String) (l : List (List String)), (∀ r ∈ l, r.all (fun x => fields.contains x) = true) →
      writeRows fields l = .ok () := by
    intro fields l
    induction l with
    | nil => intro _; rfl
    | cons r l ih =>
      intro h
      unfold writeRows at ih ⊢
      change (if _ then _ else _) >>= _ = _
      rw [if_pos (h r List.mem_cons_self)]
      exact ih (fun x hx => h x (List.mem_cons_of_mem _ hx))
  refine ⟨?_, fun h => hok _ _ (fun r hr => ?_), hok _ _ (fun r hr => ?_)⟩
  · cases rows with
    | nil => rfl
    | cons r rows =>
      unfold writeRows
      change (if _ then _ else _) >>= _ = _
      rw [if_neg (by rw [hno r]; decide), if_neg (List.cons_ne_nil _ _)]
      rfl
  · obtain ⟨x, hx, rfl⟩ := List.mem_map.mp hr; exact hsem x (h x hx)
  · obtain ⟨x, hx, rfl⟩ := List.mem_map.mp hr; exact hyes x

/-! Examples. -/

private def f1 : State := {⟨"p", []⟩}
private def f2 : State := {⟨"p", []⟩, ⟨"q", []⟩}
private def ex1 (_ : State) (_ : List Call) : Option State := some f2
private def joint : List (State × List Call × State) := [(∅, [⟨"a", []⟩, ⟨"b", []⟩], f1), (∅, [⟨"a", []⟩, ⟨"zz", []⟩], f1)]

example : (maEffCounts ["a", "b"] ex1 joint).precision "a" = some (1 / 2) ∧ (maEffCounts ["a", "b"] ex1 joint).precision "b" = some (1 / 2) ∧
    (maEffCounts ["a", "b"] ex1 joint).recall "a" = some 1 ∧ (maEffCounts ["a", "b"] ex1 joint).recall "zz" = none := by decide +kernel
example : ∀ m ∈ measured ["a", "b"] ex1 joint, occurrences "a" m.1 = occurrences "b" m.1 := by decide +kernel
example : ∀ m ∈ measured ["a", "b"] (fun _ _ => some f1) joint, m.2.1 = m.2.2 := by decide +kernel
/-- The recall of a perfect model of an action after which nothing is true. -/
example : (maEffCounts ["a"] (fun _ _ => some ∅) [(f1, [⟨"a", []⟩], ∅)]).recall "a" = some 0 := by decide +kernel

end ma

section numeric

/-- Mean of the squared differences between two assignments of the same fluents. -/
def meanSquared (l m : List (String × ℚ)) : ℚ := ((l.zipWith (fun p q => (p.2 - q.2) ^ 2) m).sum) / l.length

theorem meanSq_nonneg (ps : List (ℚ × ℚ)) : 0 ≤ meanSq ps := by
  unfold meanSq
  apply div_nonneg _ (by positivity)
  apply List.sum_nonneg
  intro x hx
  obtain ⟨p, _, rfl⟩ := List.mem_map.mp hx
  positivity

theorem lookup_nodup {m : List (String × ℚ)} (hnd : (m.map Prod.fst).Nodup) {f : String} {v : ℚ} (h : (f, v) ∈ m) : m.lookup f = some v := by
  induction m with
  | nil => simp at h
  | cons q m ih =>
    rw [List.map_cons, List.nodup_cons] at hnd
    rcases List.mem_cons.mp h with rfl | h
    · simp
    · rw [List.lookup_cons]
      have : f ≠ q.1 := by rintro rfl; exact hnd.1 (List.mem_map.mpr ⟨_, h, rfl⟩)
      have hb : (f == q.1) = false := by simpa using this
      rw [hb]; exact ih hnd.2 h

theorem mapM_lookup {l m : List (String × ℚ)} (hk : l.map Prod.fst = m.map Prod.fst) (hnd : (m.map Prod.fst).Nodup) :
    (l.mapM fun p => match m.lookup p.1 with
      | none => Except.error Err.keyError
      | some v => pure (p.2, v)) = .ok (l.zipWith (fun p q => (p.2, q.2)) m) := by
  have : ∀ (l' m' : List (String × ℚ)), l'.map Prod.fst = m'.map Prod.fst → (∀ q ∈ m', q ∈ m) →
      (l'.mapM fun p => match m.lookup p.1 with
        | none => Except.error Err.keyError
        | some v => pure (p.2, v)) = .ok (l'.zipWith (fun p q => (p.2, q.2)) m') := by
    intro l'
    induction l' with
    | nil => intro m' _ _; rfl
    | cons p l' ih =>
      intro m' hm hmem
      cases m' with
      | nil => simp at hm
      | cons q m' =>
        rw [List.map_cons, List.map_cons, List.cons.injEq] at hm
        have hq : m.lookup p.1 = some q.2 := by rw [hm.1]; exact lookup_nodup hnd (hmem q List.mem_cons_self)
        rw [List.mapM_cons, ih m' hm.2 (fun x hx => hmem x (List.mem_cons_of_mem _ hx))]
        simp only [hq]
        rfl
  exact this l m hk (fun _ h => h)

theorem zip_ne {l m : List (String × ℚ)} (hk : l.map Prod.fst = m.map Prod.fst) (hne : l ≠ []) :
    (l.zipWith (fun p q => (p.2, q.2)) m).isEmpty = false := by
  cases l with
  | nil => exact absurd rfl hne
  | cons p l =>
    cases m with
    | nil => simp at hk
    | cons q m => rfl

/-- **C68.** The error of one test is the mean squared difference of the fluents predicted by the learned and by the true action; it is
0 if one of the two is not applicable, a million if one divides by zero, and the evaluation stops with a ValueError for a state without
fluents. -/
theorem C68_error_of_a_run {prev l m : List (String × ℚ)} (hp : (prev.map Prod.fst).Nodup) (hk : l.map Prod.fst = m.map Prod.fst)
    (hnd : (m.map Prod.fst).Nodup) (mo : NumOutcome) :
    (l ≠ [] → stateMse prev (.next l) (.next m) = .ok (meanSquared l m)) ∧
    (prev ≠ [] → stateMse prev .inapplicable mo = .ok 0 ∧ stateMse prev (.next l) .inapplicable = .ok 0) ∧
    (stateMse prev .zeroDivision mo = .ok (10 ^ 6) ∧ stateMse prev (.next l) .zeroDivision = .ok (10 ^ 6)) ∧
    (stateMse [] .inapplicable mo = .error .valueError ∧ stateMse prev (.next []) (.next []) = .error .valueError) := by
  have hself : ∀ (q : List (String × ℚ)), (q.zipWith (fun p q => (p.2, q.2)) q).map (fun p => (p.1 - p.2) ^ 2) = q.map fun _ => (0 : ℚ) := by
    intro q
    induction q with
    | nil => rfl
    | cons x q ih => rw [List.zipWith_cons_cons, List.map_cons, ih, List.map_cons]; simp
  have hcmp : prev ≠ [] → ((do
      let values ← prev.mapM fun p => match prev.lookup p.1 with
        | none => Except.error Err.keyError
        | some v => pure (p.2, v)
      if values.isEmpty then .error .valueError else pure (meanSq values)) : Except Err ℚ) = .ok 0 := by
    intro hne
    rw [mapM_lookup rfl hp]
    simp only [Bind.bind, Except.bind]
    rw [zip_ne rfl hne]
    simp only [Bool.false_eq_true, if_false]
    unfold meanSq
    rw [hself]
    simp
    rfl
  refine ⟨fun hne => ?_, fun hne => ⟨hcmp hne, hcmp hne⟩, ⟨rfl, rfl⟩, rfl, rfl⟩
  suffices hgoal : ((do
      let values ← l.mapM fun p => match m.lookup p.1 with
        | none => Except.error Err.keyError
        | some v => pure (p.2, v)
      if values.isEmpty then .error .valueError else pure (meanSq values)) : Except Err ℚ) = .ok (meanSquared l m) from hgoal
  rw [mapM_lookup hk hnd]
  simp only [Bind.bind, Except.bind]
  rw [zip_ne hk hne]
  simp only [Bool.false_eq_true, if_false]
  unfold meanSq meanSquared
  have hlen : l.length = m.length := by simpa using congrArg List.length hk
  rw [List.map_zipWith, List.length_zipWith, ← hlen, Nat.min_self]
  rfl

/-- **C68.** The mean squared difference is never negative, and 0 exactly when all predicted values agree. -/
theorem C68_zero_iff {l m : List (String × ℚ)} (hk : l.map Prod.fst = m.map Prod.fst) :
    0 ≤ meanSquared l m ∧ (l ≠ [] → (meanSquared l m = 0 ↔ l = m)) := by
  have hnn : ∀ l m : List (String × ℚ), 0 ≤ (l.zipWith (fun p q => (p.2 - q.2) ^ 2) m).sum := by
    intro l m
    apply List.sum_nonneg
    intro x hx
    rw [← List.map_uncurry_zip_eq_zipWith] at hx
    obtain ⟨p, _, rfl⟩ := List.mem_map.mp hx
    simp only [Function.uncurry]; positivity
  have hz : ∀ l m : List (String × ℚ), l.map Prod.fst = m.map Prod.fst →
      ((l.zipWith (fun p q => (p.2 - q.2) ^ 2) m).sum = 0 ↔ l = m) := by
    intro l
    induction l with
    | nil => intro m h; cases m with
      | nil => simp
      | cons q m => simp at h
    | cons p l ih =>
      intro m h
      cases m with
      | nil => simp at h
      | cons q m =>
        rw [List.map_cons, List.map_cons, List.cons.injEq] at h
        rw [List.zipWith_cons_cons, List.sum_cons, List.cons.injEq, ← ih m h.2]
        have h1 := hnn l m
        have h2 : 0 ≤ (p.2 - q.2) ^ 2 := by positivity
        constructor
        · intro e
          have e1 : (p.2 - q.2) ^ 2 = 0 := by linarith
          have e2 : p.2 = q.2 := by have := pow_eq_zero_iff (two_ne_zero) |>.mp e1; linarith
          exact ⟨Prod.ext h.1 e2, by linarith⟩
        · rintro ⟨rfl, e⟩; rw [e]; simp
  unfold meanSquared
  refine ⟨div_nonneg (hnn l m) (by positivity), fun hne => ?_⟩
  have hl : (l.length : ℚ) ≠ 0 := by
    have : l.length ≠ 0 := by simpa using hne
    exact_mod_cast this
  rw [div_eq_zero_iff, or_iff_left hl, hz l m hk]

theorem effFoldNum {names : List String} (cs : List (String × List (String × ℚ) × NumOutcome × NumOutcome))
    (e : String × List (String × ℚ) × NumOutcome × NumOutcome → ℚ)
    (he : ∀ c ∈ cs, c.1 ∈ names → stateMse c.2.1 c.2.2.1 c.2.2.2 = .ok (e c)) (acc : String → List ℚ) :
    cs.foldlM (fun (acc : String → List ℚ) c =>
      if c.1 ∉ names then Except.ok acc
      else do
        let e ← stateMse c.2.1 c.2.2.1 c.2.2.2
        pure (Function.update acc c.1 (acc c.1 ++ [e]))) acc =
      .ok fun a => acc a ++ (if a ∈ names then (cs.filter fun c => c.1 = a).map e else []) := by
  induction cs generalizing acc with
  | nil => simp [pure, Except.pure]
  | cons c cs ih =>
    rw [List.foldlM_cons]
    have ih' := ih (fun x hx => he x (List.mem_cons_of_mem _ hx))
    by_cases hc : c.1 ∈ names
    · rw [if_neg (not_not.mpr hc), he c List.mem_cons_self hc]
      simp only [Bind.bind, Except.bind, pure, Except.pure] at ih' ⊢
      rw [ih']
      congr 1; funext a
      by_cases ha : c.1 = a
      · subst ha
        rw [if_pos hc, List.filter_cons_of_pos (by simp), Function.update_self, List.map_cons, List.append_assoc, if_pos hc]; rfl
      · rw [List.filter_cons_of_neg (by simpa using ha), Function.update_of_ne (Ne.symm ha)]
    · rw [if_pos hc]
      simp only [Bind.bind, Except.bind, pure, Except.pure] at ih' ⊢
      rw [ih']
      congr 1; funext a
      by_cases ha : c.1 = a
      · subst ha; rw [if_neg hc, if_neg hc]
      · rw [List.filter_cons_of_neg (by simpa using ha)]

/-- **C68.** The error reported for a learned action is the mean of the errors of its tests, 0 if it was never tested; an action that
was not learned has no value (it is reported as 0). -/
theorem C68_mean_error {names : List String} {cs : List (String × List (String × ℚ) × NumOutcome × NumOutcome)}
    {e : String × List (String × ℚ) × NumOutcome × NumOutcome → ℚ}
    (he : ∀ c ∈ cs, c.1 ∈ names → stateMse c.2.1 c.2.2.1 c.2.2.2 = .ok (e c)) :
    ∃ v, effectsMse names cs = .ok v ∧ (∀ a ∉ names, v a = none) ∧ ∀ a ∈ names,
      v a = some ((((cs.filter fun c => c.1 = a).map e).sum) / ((cs.filter fun c => c.1 = a).length : ℚ)) := by
  refine ⟨_, by unfold effectsMse; rw [effFoldNum cs e he]; rfl, fun a ha => ?_, fun a ha => ?_⟩
  · simp [ha]
  · by_cases hn : (cs.filter fun c => c.1 = a) = []
    · simp [ha, hn]
    · simp [ha, hn]

/-- numeric_performance_calculator.py:95-117: the rows of one more evaluation are appended and then completed. -/
def evaluateOnce (Dm : Domain) (rows : List PerfRow) (n : ℕ) (policy : String)
    (pre eff : (String → Option ℚ) × (String → Option ℚ)) (mse : String → Option ℚ) : List PerfRow :=
  fillMse Dm.names n policy mse (rows ++ perfRows Dm n policy pre eff)

theorem setMse_append_left {a : String} {n : ℕ} {policy : String} {v : ℚ} {rows : List PerfRow} (h : ∀ r ∈ rows, ¬ (r.action = a ∧ r.numTraj = n ∧ r.policy = policy))
    (l : List PerfRow) : setMse a n policy v (rows ++ l) = rows ++ setMse a n policy v l := by
  induction rows with
  | nil => rfl
  | cons r rows ih =>
    rw [List.cons_append, setMse, if_neg (h r List.mem_cons_self), ih (fun x hx => h x (List.mem_cons_of_mem _ hx)), List.cons_append]

/-- **C68.** An evaluation under a new key (number of trajectories and policy) leaves the earlier rows as they are and adds one row per
true action, carrying its error. -/
theorem C68_rows_completed {Dm : Domain} (hnd : Dm.names.Nodup) {rows : List PerfRow} {n : ℕ} {policy : String}
    (hnew : ∀ r ∈ rows, ¬ (r.numTraj = n ∧ r.policy = policy)) (pre eff : (String → Option ℚ) × (String → Option ℚ)) (mse : String → Option ℚ) :
    evaluateOnce Dm rows n policy pre eff mse =
      rows ++ (perfRows Dm n policy pre eff).map fun r => { r with mse := some ((mse r.action).getD 0) } := by
  have key : ∀ (done todo : List String) (f : String → PerfRow), (∀ a, (f a).action = a ∧ (f a).numTraj = n ∧ (f a).policy = policy) →
      (done ++ todo).Nodup →
      todo.foldl (fun rs a => setMse a n policy ((mse a).getD 0) rs)
        (rows ++ (done.map fun a => { f a with mse := some ((mse a).getD 0) }) ++ todo.map f) =
      rows ++ ((done ++ todo).map fun a => { f a with mse := some ((mse a).getD 0) }) := by
    intro done todo
    induction todo generalizing done with
    | nil => intro f _ _; simp
    | cons a todo ih =>
      intro f hf hn
      rw [List.foldl_cons, List.map_cons]
      rw [setMse_append_left]
      · have hset : setMse a n policy ((mse a).getD 0) (f a :: todo.map f) = { f a with mse := some ((mse a).getD 0) } :: todo.map f := by
          unfold setMse; rw [if_pos (hf a)]
        rw [hset]
        have := ih (done ++ [a]) f hf (by rw [List.append_assoc]; exact hn)
        rw [List.map_append, List.map_singleton, List.append_assoc, List.append_assoc, List.append_assoc] at this
        rw [List.append_assoc]
        exact this
      · intro r hr
        rw [List.mem_append] at hr
        rcases hr with hr | hr
        · exact fun k => hnew r hr k.2
        · obtain ⟨b, hb, rfl⟩ := List.mem_map.mp hr
          intro k
          have hba : b = a := (hf b).1.symm.trans k.1
          subst hba
          rw [List.nodup_append] at hn
          exact hn.2.2 b hb b List.mem_cons_self rfl
  have := key [] Dm.names (fun a => { action := a, numTraj := n, policy := policy, prePrec := (pre.1 a).getD 1, preRec := (pre.2 a).getD 0,
                                      effPrec := (eff.1 a).getD 1, effRec := (eff.2 a).getD 1, mse := none }) (fun _ => ⟨rfl, rfl, rfl⟩) hnd
  unfold evaluateOnce fillMse perfRows
  rw [List.map_nil, List.append_nil, List.nil_append] at this
  rw [this, List.map_map]
  rfl

/-! Examples and limits. -/

private def vals : List (String × ℚ) := [("f", 1), ("g", 2)]
private def vals' : List (String × ℚ) := [("f", 1), ("g", 4)]

example : stateMse vals (.next vals) (.next vals') = .ok 2 := by decide +kernel

private def none2 : (String → Option ℚ) × (String → Option ℚ) := (fun _ => none, fun _ => none)

/-- Evaluating twice under the same key (as for two folds with equally many trajectories) overwrites the error of the first evaluation and
leaves the second row without one. -/
theorem C68_limit_same_key :
    (evaluateOnce World.D (evaluateOnce World.D [] 3 "p" none2 none2 (fun _ => some 5)) 3 "p" none2 none2 (fun _ => some 7)).map
      (fun r => (r.action, r.mse)) = [("move", some 7), ("paint", some 7), ("move", none), ("paint", none)] := by decide +kernel

/-- A learned action that can never be executed, and one that was not learned at all, are both reported with error 0. -/
theorem C68_limit_never_applicable :
    (match effectsMse ["a"] [("a", vals, .inapplicable, .next vals'), ("b", vals, .next vals, .next vals')] with
      | .ok v => decide ((v "a").getD 0 = 0 ∧ (v "b").getD 0 = 0) | .error _ => false) = true := by decide +kernel

end numeric

section manager
variable {Dm : Domain}

theorem foldl_update_count (l : List String) (k : String → ℕ) (a : String) :
    (l.foldl (fun k x => Function.update k x (k x + 1)) k) a = k a + l.count a := by
  induction l generalizing k with
  | nil => simp
  | cons x l ih =>
    rw [List.foldl_cons, ih, List.count_cons, Function.update_apply]
    by_cases h : a = x
    · subst h; rw [if_pos rfl]; simp; omega
    · rw [if_neg h]
      have : (x == a) = false := by simpa using fun e : x = a => h e.symm
      rw [this]; simp

/-- **C69.** The reported number of appearances of an action is the number of its occurrences in all components, also several times
in one joint action. -/
theorem C69_appearances (obs : List (List (List String))) (a : String) :
    appearances obs a = (obs.flatten.flatten).count a := by
  have h : appearances obs = (obs.flatten.flatten).foldl (fun k x => Function.update k x (k x + 1)) (fun _ => 0) := by
    unfold appearances
    rw [List.foldl_flatten, List.foldl_flatten]
  rw [h, foldl_update_count, Nat.zero_add]

/-- The row of an action: for a learned action the numbers of `C64` computed from this action alone, otherwise constants. -/
def expectedRow (Dm Dl : Domain) (obs : List (List (List String))) (a : String) : StatRow :=
  if a ∈ Dl.names then statRow Dm obs a (Dl.act a).pre (Dl.act a).eff ((evaluated [(a, Dl.act a, Dm.act a)]).export a)
  else statRow Dm obs a ∅ ∅ unlearnedStats

theorem export_add (C C' : SynCalc) (a : String) (l m : ActModel) : (C.addAction a l a m).export a = (C'.addAction a l a m).export a := by
  simp [SynCalc.export, SynCalc.addAction, SynCalc.actionPrecision, SynCalc.actionRecall, SynCalc.tp, SynCalc.fp, SynCalc.fn]

/-- **C69.** One call adds one row per action of the true domain, in its order, and each row depends on that action only. -/
theorem C69_rows (Dl : Domain) (obs : List (List (List String))) : statRows Dm Dl obs = Dm.names.map (expectedRow Dm Dl obs) := by
  have h : ∀ (l : List String) (acc : SynCalc × List StatRow),
      (l.foldl (fun (acc : SynCalc × List StatRow) a =>
        if a ∉ Dl.names then (acc.1, acc.2 ++ [statRow Dm obs a ∅ ∅ unlearnedStats])
        else
          let C := acc.1.addAction a (Dl.act a) a (Dm.act a)
          (C, acc.2 ++ [statRow Dm obs a (Dl.act a).pre (Dl.act a).eff (C.export a)])) acc).2 = acc.2 ++ l.map (expectedRow Dm Dl obs) := by
    intro l
    induction l with
    | nil => intro acc; simp
    | cons a l ih =>
      intro acc
      rw [List.foldl_cons, ih, List.map_cons]
      by_cases ha : a ∈ Dl.names
      · rw [if_neg (not_not.mpr ha)]
        dsimp only
        rw [List.append_assoc, List.singleton_append]
        unfold expectedRow
        rw [if_pos ha]
        rw [export_add acc.1 SynCalc.init]
        rfl
      · rw [if_pos ha, List.append_assoc, List.singleton_append]
        unfold expectedRow
        rw [if_neg ha]
  unfold statRows
  rw [h]
  rfl

/-- **C69.** Every row tells the number of observations and of their components, how often the action appeared, the learned
preconditions and effects with the numbers of add and delete effects; for an action that was not learned, nothing is learned,
precondition recall and effect precision are one and everything else, the F1 score included, is zero except the recall of the action. -/
theorem C69_row_fields (Dl : Domain) (obs : List (List (List String))) (r : StatRow) (hr : r ∈ statRows Dm Dl obs) :
    r.action ∈ Dm.names ∧ r.numTrajectories = obs.length ∧ r.numTriplets = obs.flatten.length ∧
    r.appeared = obs.flatten.flatten.count r.action ∧
    (r.action ∈ Dl.names → r.learnedPre = (Dl.act r.action).pre ∧ r.learnedEff = (Dl.act r.action).eff ∧
      (∃ A R : Finset Lit, A ∪ R = (Dl.act r.action).eff ∧ (∀ l ∈ A, l.pos = true) ∧ (∀ l ∈ R, l.pos = false) ∧
        r.numAdd = A.card ∧ r.numDelete = R.card)) ∧
    (r.action ∉ Dl.names → r.learnedPre = ∅ ∧ r.learnedEff = ∅ ∧ r.numAdd = 0 ∧ r.numDelete = 0 ∧
      r.stats.prePrecision = 0 ∧ r.stats.effPrecision = 1 ∧ r.stats.preRecall = 1 ∧ r.stats.effRecall = 0 ∧
      r.stats.actPrecision = 0 ∧ r.stats.actRecall = 1 ∧ r.stats.f1 = 0) := by
  rw [C69_rows] at hr
  obtain ⟨a, ha, rfl⟩ := List.mem_map.mp hr
  have hlen : ∀ l : List (List (List String)), (l.map List.length).sum = l.flatten.length := by
    intro l; rw [List.length_flatten]
  have happ : appearances obs a = obs.flatten.flatten.count a := by
    rw [C69_appearances]
  unfold expectedRow
  by_cases h : a ∈ Dl.names
  · rw [if_pos h]
    refine ⟨ha, rfl, hlen _, happ, fun _ => ⟨rfl, rfl, _, _, ?_, ?_, ?_, rfl, rfl⟩, fun h' => absurd h h'⟩
    · ext l; simp only [Finset.mem_union, Finset.mem_filter]
      cases l.pos <;> simp [statRow]
    · intro l hl; exact (Finset.mem_filter.mp hl).2
    · intro l hl; exact (Finset.mem_filter.mp hl).2
  · rw [if_neg h]
    exact ⟨ha, rfl, hlen _, happ, fun h' => absurd h' h, fun _ => ⟨rfl, rfl, rfl, rfl, rfl, rfl, rfl, rfl, rfl, rfl, rfl⟩⟩

/-- The rows added by an operation. -/
def addedBy (Dm : Domain) : StatOp → List StatRow
  | .add Dl obs => Dm.names.map (expectedRow Dm Dl obs)
  | .clear => []

/-- The operations after the last `clear`. -/
def sinceClear (ops : List StatOp) : List StatOp :=
  (ops.reverse.takeWhile fun o => match o with | .clear => false | _ => true).reverse

/-- **C69.** In every history the fold rows and the merged rows together are all rows ever added, in order, none lost or duplicated;
the rows of the current fold are those added since the last `clear`. -/
theorem C69_history (ops : List StatOp) :
    (StatManager.run Dm ops).merged ++ (StatManager.run Dm ops).current = ops.flatMap (addedBy Dm) ∧
    (StatManager.run Dm ops).current = (sinceClear ops).flatMap (addedBy Dm) := by
  induction ops using List.reverseRecOn with
  | nil => exact ⟨rfl, rfl⟩
  | append_singleton ops o ih =>
    have hs : StatManager.run Dm (ops ++ [o]) = StatManager.step Dm (StatManager.run Dm ops) o := by
      unfold StatManager.run; rw [List.foldl_append]; rfl
    rw [hs, List.flatMap_append]
    cases o with
    | add Dl obs =>
      have hsc : sinceClear (ops ++ [.add Dl obs]) = sinceClear ops ++ [.add Dl obs] := by
        unfold sinceClear; simp
      rw [hsc, List.flatMap_append]
      unfold StatManager.step
      dsimp only
      rw [← List.append_assoc, ih.1, C69_rows]
      refine ⟨by simp [addedBy], ?_⟩
      rw [ih.2]; simp [addedBy]
    | clear =>
      have hsc : sinceClear (ops ++ [.clear]) = [] := by unfold sinceClear; simp
      rw [hsc]
      unfold StatManager.step
      dsimp only
      rw [List.append_nil, ih.1]
      exact ⟨by simp [addedBy], rfl⟩

/-! Example: two folds. -/

example : ((statRows World.D { World.D with act := fun a => { World.D.act a with eff := (World.truth a).eff } }
      [[["move"]], [["move"], ["paint"]]]).map fun r => (r.numTrajectories, r.numTriplets, r.numAdd, r.numDelete)) =
    [(2, 3, 1, 1), (2, 3, 1, 0)] := by decide +kernel

example : ((StatManager.run World.D [.add World.D [[["move"]]], .clear, .add World.D [[["move"], ["paint"]]]]).merged.map (·.action)) =
    ["move", "paint"] ∧
    ((StatManager.run World.D [.add World.D [[["move"]]], .clear, .add World.D [[["move"], ["paint"]]]]).current.map (·.appeared)) = [1, 1] := by
  decide +kernel
example : appearances [[["a", "b"], ["a", "a"]], [["b"]]] "a" = 3 := by decide +kernel

end manager
end Props
