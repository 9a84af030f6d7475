import Verif.Model.NumMatch
import Verif.Spec.Strips

namespace Model
open Spec

theorem lookup_mem {κ β : Type} [DecidableEq κ] {l : List (κ × β)} {k : κ} {v : β} (h : l.lookup k = some v) : (k, v) ∈ l := by
  induction l with
  | nil => simp at h
  | cons p l ih =>
    obtain ⟨a, b⟩ := p
    rw [List.lookup_cons] at h
    by_cases hk : k = a
    · subst hk
      simp only [beq_self_eq_true] at h
      simp only [Option.some.injEq] at h
      simp [h]
    · have : (k == a) = false := by simpa using hk
      rw [this] at h
      exact List.mem_cons_of_mem _ (ih h)

theorem lookup_of_mem_nodup {κ β : Type} [DecidableEq κ] {l : List (κ × β)} (hnd : (l.map Prod.fst).Nodup) {k : κ} {v : β}
    (h : (k, v) ∈ l) : l.lookup k = some v := by
  induction l with
  | nil => simp at h
  | cons p l ih =>
    obtain ⟨a, b⟩ := p
    rw [List.map_cons, List.nodup_cons] at hnd
    rw [List.lookup_cons]
    rcases List.mem_cons.mp h with he | h'
    · simp only [Prod.mk.injEq] at he
      simp [he.1, he.2]
    · have hk : k ≠ a := by rintro rfl; exact hnd.1 (List.mem_map.mpr ⟨_, h', rfl⟩)
      have : (k == a) = false := by simpa using hk
      rw [this]
      exact ih hnd.2 h'

/-- A dictionary comprehension in which a key has only one value. -/
theorem lookup_dictOf_functional {κ β : Type} [DecidableEq κ] {l : List (κ × β)}
    (hf : ∀ k v v', (k, v) ∈ l → (k, v') ∈ l → v = v') {k : κ} {v : β} : (Py.dictOf l).lookup k = some v ↔ (k, v) ∈ l := by
  have key : ∀ (l d : List (κ × β)), (∀ k v v', (k, v) ∈ d ++ l → (k, v') ∈ d ++ l → v = v') → (d.map Prod.fst).Nodup →
      ((l.foldl (fun d p => Py.dictSet d p.1 p.2) d).lookup k = some v ↔ (k, v) ∈ d ++ l) := by
    intro l
    induction l with
    | nil =>
      intro d _ hnd
      simp only [List.foldl_nil, List.append_nil]
      exact ⟨lookup_mem, lookup_of_mem_nodup hnd⟩
    | cons p l ih =>
      intro d hf hnd
      rw [List.foldl_cons]
      have hmem : ∀ q, q ∈ Py.dictSet d p.1 p.2 ↔ q ∈ d ∨ q = p := by
        intro q
        unfold Py.dictSet
        split
        · next hk =>
          rw [List.mem_map]
          constructor
          · rintro ⟨r, hr, rfl⟩
            split
            · right; rfl
            · left; exact hr
          · rintro (hq | rfl)
            · by_cases he : q.1 = p.1
              · refine ⟨q, hq, ?_⟩
                rw [if_pos he]
                have := hf p.1 q.2 p.2 (by rw [← he]; exact List.mem_append_left _ hq) (by simp)
                rw [← this, ← he]
              · exact ⟨q, hq, by rw [if_neg he]⟩
            · obtain ⟨r, hr, he⟩ := List.mem_map.mp hk
              exact ⟨r, hr, by rw [if_pos he]⟩
        · simp
      rw [ih]
      · simp only [List.mem_append, List.mem_cons, hmem]
        grind
      · intro k v v' h1 h2
        simp only [List.mem_append, hmem] at h1 h2
        apply hf k v v'
        · simp only [List.mem_append, List.mem_cons]; grind
        · simp only [List.mem_append, List.mem_cons]; grind
      · rw [Py.keys_dictSet]
        split
        · exact hnd
        · next h =>
          rw [List.nodup_append]
          exact ⟨hnd, by simp, by intro a ha b hb; simp at hb; subst hb; rintro rfl; exact h ha⟩
  have := key l [] (by simpa using hf) (by simp)
  simpa [Py.dictOf] using this

section
variable {consts params call : List String} {ρ : String → String}

theorem mapping_mem (hρ : params.map ρ = call) (hc : ∀ c ∈ consts, ρ c = c) (q : String × String) :
    q ∈ call.zip params ++ consts.map (fun c => (c, c)) ↔ q.1 = ρ q.2 ∧ (q.2 ∈ params ∨ q.2 ∈ consts) := by
  subst hρ
  rw [List.mem_append]
  have hz : (params.map ρ).zip params = params.map fun a => (ρ a, a) := by
    induction params with
    | nil => rfl
    | cons a l ih => simp [ih]
  rw [hz, List.mem_map, List.mem_map]
  constructor
  · rintro (⟨a, ha, rfl⟩ | ⟨c, hc', rfl⟩)
    · exact ⟨rfl, Or.inl ha⟩
    · exact ⟨(hc c hc').symm, Or.inr hc'⟩
  · rintro ⟨h1, h2 | h2⟩
    · exact Or.inl ⟨q.2, h2, by rw [← h1]⟩
    · refine Or.inr ⟨q.2, h2, ?_⟩
      rw [hc q.2 h2] at h1
      exact Prod.ext h1.symm rfl

theorem mem_liftFunction (hρ : params.map ρ = call) (hc : ∀ c ∈ consts, ρ c = c) {g l : Atom} (hnd : g.args.Nodup) :
    l ∈ liftFunction consts params call g ↔
      l.name = g.name ∧ (∀ a ∈ l.args, a ∈ params ∨ a ∈ consts) ∧ l.args.map ρ = g.args := by
  unfold liftFunction
  dsimp only
  rw [List.mem_map]
  have hdict : ∀ p : List (String × String), (p.map Prod.snd).Nodup →
      (Py.dictOf (p.map fun q => (q.2, ()))).map Prod.fst = p.map Prod.snd := by
    intro p hp
    rw [Py.dictOf_of_nodup (by rw [List.map_map]; exact hp), List.map_map]
    rfl
  constructor
  · rintro ⟨p, hp, rfl⟩
    obtain ⟨h1, h2⟩ := List.mem_filter.mp hp
    have h2' : p.map Prod.fst = g.args := by simpa using h2
    rw [Py.mem_prod, List.forall₂_iff_get] at h1
    have hall : ∀ q ∈ p, q.1 = ρ q.2 ∧ (q.2 ∈ params ∨ q.2 ∈ consts) := by
      intro q hq
      obtain ⟨i, hi, rfl⟩ := List.mem_iff_getElem.mp hq
      have := h1.2 i hi (by rw [← h1.1]; exact hi)
      simp only [List.get_eq_getElem, List.getElem_replicate] at this
      exact (mapping_mem hρ hc _).mp this
    have hmap : (p.map Prod.snd).map ρ = g.args := by
      rw [← h2', List.map_map]
      apply List.map_congr_left
      intro q hq
      exact ((hall q hq).1).symm
    rw [hdict p (List.Nodup.of_map ρ (by rw [hmap]; exact hnd))]
    refine ⟨rfl, ?_, hmap⟩
    intro a ha
    obtain ⟨q, hq, rfl⟩ := List.mem_map.mp ha
    exact (hall q hq).2
  · rintro ⟨h1, h2, h3⟩
    refine ⟨l.args.map fun a => (ρ a, a), ?_, ?_⟩
    · rw [List.mem_filter]
      constructor
      · rw [Py.mem_prod, List.forall₂_iff_get]
        refine ⟨by simp [← h3], fun i hi hi' => ?_⟩
        simp only [List.get_eq_getElem, List.getElem_replicate, List.getElem_map]
        exact (mapping_mem hρ hc _).mpr ⟨rfl, h2 _ (List.getElem_mem _)⟩
      · simp only [decide_eq_true_eq]
        rw [List.map_map, ← h3]
        rfl
    · rw [hdict]
      · rw [List.map_map]
        cases l
        simp only at h1 ⊢
        rw [h1]
        congr 1
        exact List.map_id _
      · rw [List.map_map]
        exact List.Nodup.of_map ρ (by rw [List.map_map]; rw [← h3] at hnd; exact hnd)

variable {K : Type} {state : List (Atom × K)}

theorem mem_functionEntries (hρ : params.map ρ = call) (hc : ∀ c ∈ consts, ρ c = c) (hst : ∀ p ∈ state, p.1.args.Nodup)
    {f : PredDecl} {es : List (Atom × K)} (h : functionEntries consts params call state f = .ok es) {l : Atom} {v : K} :
    (l, v) ∈ es ↔ l.name = f.name ∧ l.args.length = f.sig.length ∧ (∀ a ∈ l.args, a ∈ params ∨ a ∈ consts) ∧
      state.lookup ⟨f.name, l.args.map ρ⟩ = some v := by
  have hsub : (∀ a ∈ l.args, a ∈ params ∨ a ∈ consts) → ∀ o ∈ l.args.map ρ, o ∈ call ++ consts := by
    intro ha o ho
    obtain ⟨a, ha', rfl⟩ := List.mem_map.mp ho
    rcases ha a ha' with h | h
    · rw [← hρ]; exact List.mem_append_left _ (List.mem_map.mpr ⟨a, h, rfl⟩)
    · rw [hc a h]; exact List.mem_append_right _ h
  unfold functionEntries at h
  split_ifs at h with h1 h2
  · simp only [Except.ok.injEq] at h
    subst h
    simp only [List.not_mem_nil, false_iff]
    rintro ⟨-, hl, ha, hlk⟩
    have hnd := hst _ (lookup_mem hlk)
    simp only at hnd
    have hcn : consts = [] := List.length_eq_zero_iff.mp h1.2
    have := (List.subperm_of_subset hnd (hsub ha)).length_le
    rw [hcn] at this
    simp only [List.length_map, List.append_nil] at this
    omega
  · cases hlk : state.lookup ⟨f.name, []⟩ with
    | none => rw [hlk] at h; simp at h
    | some w =>
      rw [hlk] at h
      simp only [Except.ok.injEq] at h
      subst h
      simp only [List.mem_singleton, Prod.mk.injEq]
      constructor
      · rintro ⟨rfl, rfl⟩
        exact ⟨rfl, by simp [h2], by simp, hlk⟩
      · rintro ⟨hn, hl, -, hv⟩
        have hnil : l.args = [] := List.length_eq_zero_iff.mp (hl.trans h2)
        rw [hnil, List.map_nil, hlk] at hv
        refine ⟨?_, by simpa using hv.symm⟩
        cases l
        simp only at hn hnil ⊢
        rw [hn, hnil]
  · simp only [Except.ok.injEq] at h
    subst h
    rw [List.mem_flatMap]
    constructor
    · rintro ⟨g, hg, hm⟩
      obtain ⟨perm, hperm, rfl⟩ := List.mem_map.mp hg
      cases hlk : state.lookup ⟨f.name, perm⟩ with
      | none => rw [hlk] at hm; simp at hm
      | some w =>
        rw [hlk] at hm
        obtain ⟨l', hl', he⟩ := List.mem_map.mp hm
        simp only [Prod.mk.injEq] at he
        obtain ⟨rfl, rfl⟩ := he
        obtain ⟨a1, a2, a3⟩ := (mem_liftFunction hρ hc (g := ⟨f.name, perm⟩) (hst _ (lookup_mem hlk))).mp hl'
        simp only at a3
        have := (Py.mem_perms.mp hperm).1
        refine ⟨a1, by rw [← this, ← a3]; simp, a2, by rw [a3]; exact hlk⟩
    · rintro ⟨hn, hl, ha, hlk⟩
      have hnd := hst _ (lookup_mem hlk)
      simp only at hnd
      refine ⟨⟨f.name, l.args.map ρ⟩, List.mem_map.mpr ⟨l.args.map ρ, Py.mem_perms.mpr ⟨by simpa using hl,
        List.subperm_of_subset hnd (hsub ha)⟩, rfl⟩, ?_⟩
      rw [hlk]
      exact List.mem_map.mpr ⟨l, (mem_liftFunction hρ hc hnd).mpr ⟨hn, ha, rfl⟩, rfl⟩

theorem mapM_ok_iff {α β ε : Type} {f : α → Except ε β} {l : List α} {r : List β} (h : l.mapM f = .ok r) :
    List.Forall₂ (fun a b => f a = .ok b) l r := by
  induction l generalizing r with
  | nil =>
    simp only [List.mapM_nil, pure, Except.pure, Except.ok.injEq] at h
    subst h
    exact List.Forall₂.nil
  | cons a l ih =>
    rw [List.mapM_cons] at h
    simp only [Bind.bind, Except.bind] at h
    cases ha : f a with
    | error e => rw [ha] at h; simp at h
    | ok b =>
      rw [ha] at h
      dsimp only at h
      cases hl : l.mapM f with
      | error e => rw [hl] at h; simp at h
      | ok r' =>
        rw [hl] at h
        simp only [pure, Except.pure, Except.ok.injEq] at h
        subst h
        exact List.Forall₂.cons ha (ih hl)

theorem mapM_isOk {α β ε : Type} {f : α → Except ε β} {l : List α} (h : ∀ a ∈ l, ∃ b, f a = .ok b) : ∃ r, l.mapM f = .ok r := by
  induction l with
  | nil => exact ⟨[], rfl⟩
  | cons a l ih =>
    obtain ⟨b, hb⟩ := h a (by simp)
    obtain ⟨r, hr⟩ := ih fun a ha => h a (by simp [ha])
    exact ⟨b :: r, by rw [List.mapM_cons]; simp [Bind.bind, Except.bind, hb, hr, pure, Except.pure]⟩

theorem matchFunctions_lookup (hρ : params.map ρ = call) (hc : ∀ c ∈ consts, ρ c = c) (hst : ∀ p ∈ state, p.1.args.Nodup)
    {fns : List PredDecl} {m : List (Atom × K)} (h : matchFunctions fns consts params call state = .ok m) {l : Atom} {v : K} :
    m.lookup l = some v ↔ (∃ f ∈ fns, f.name = l.name ∧ f.sig.length = l.args.length) ∧ (∀ a ∈ l.args, a ∈ params ∨ a ∈ consts) ∧
      state.lookup ⟨l.name, l.args.map ρ⟩ = some v := by
  unfold matchFunctions at h
  simp only [Bind.bind, Except.bind] at h
  cases hes : fns.mapM (functionEntries consts params call state) with
  | error e => rw [hes] at h; simp at h
  | ok es =>
    rw [hes] at h
    simp only [Except.ok.injEq] at h
    subst h
    have hf2 := mapM_ok_iff hes
    have hmem : ∀ (l : Atom) (v : K), (l, v) ∈ es.flatten ↔ (∃ f ∈ fns, f.name = l.name ∧ f.sig.length = l.args.length) ∧
        (∀ a ∈ l.args, a ∈ params ∨ a ∈ consts) ∧ state.lookup ⟨l.name, l.args.map ρ⟩ = some v := by
      intro l v
      rw [List.mem_flatten]
      constructor
      · rintro ⟨e, he, hm⟩
        obtain ⟨i, hi, rfl⟩ := List.mem_iff_getElem.mp he
        rw [List.forall₂_iff_get] at hf2
        have hi' : i < fns.length := by rw [hf2.1]; exact hi
        obtain ⟨b1, b2, b3, b4⟩ := (mem_functionEntries hρ hc hst (hf2.2 i hi' hi)).mp hm
        exact ⟨⟨fns[i], List.getElem_mem _, b1.symm, b2.symm⟩, b3, by rw [b1]; exact b4⟩
      · rintro ⟨⟨f, hf, hn, hl⟩, ha, hlk⟩
        obtain ⟨i, hi, rfl⟩ := List.mem_iff_getElem.mp hf
        rw [List.forall₂_iff_get] at hf2
        have hi' : i < es.length := by rw [← hf2.1]; exact hi
        refine ⟨es[i], List.getElem_mem _, ?_⟩
        exact (mem_functionEntries hρ hc hst (hf2.2 i hi hi')).mpr ⟨hn.symm, hl.symm, ha, by rw [List.get_eq_getElem, hn]; exact hlk⟩
    rw [lookup_dictOf_functional, hmem]
    intro k v v' h1 h2
    have a := ((hmem k v).mp h1).2.2
    have b := ((hmem k v').mp h2).2.2
    rw [a] at b
    simpa using b

theorem lookup_numericSnapshot {objs : List String} {g : Atom} (hnd : (state.map Prod.fst).Nodup) :
    (numericSnapshot state objs).lookup g = if ∀ o ∈ g.args, o ∈ objs then state.lookup g else none := by
  have hp : ∀ g : Atom, (g.args = [] || g.args.all (objs.contains ·)) = true ↔ ∀ o ∈ g.args, o ∈ objs := by
    intro g
    simp only [Bool.or_eq_true, decide_eq_true_eq, List.all_eq_true, List.contains_iff_mem]
    constructor
    · rintro (h | h)
      · rw [h]; simp
      · exact h
    · exact Or.inr
  have hnd' : ((numericSnapshot state objs).map Prod.fst).Nodup := by
    unfold numericSnapshot
    exact (List.Sublist.map _ List.filter_sublist).nodup hnd
  apply Option.ext
  intro v
  constructor
  · intro h
    have hm := lookup_mem h
    obtain ⟨h1, h2⟩ := List.mem_filter.mp hm
    rw [if_pos ((hp g).mp h2)]
    exact lookup_of_mem_nodup hnd h1
  · intro h
    split_ifs at h with hc
    exact lookup_of_mem_nodup hnd' (List.mem_filter.mpr ⟨lookup_mem h, (hp g).mpr hc⟩)

end
end Model
