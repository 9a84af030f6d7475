import Verif.Model.PlanMiner
import Verif.Props.Results
import Verif.Lemmas.Vocab

/-!
C116: the file of trajectories for PlanMiner.
-/
namespace Props
namespace PlanMiner

open Model Model.PlanMiner Spec
open Model.Results (num)

/-! ### Vocabulary -/

/-- The lines of a text. -/
def lines : Text → List Text
  | [] => [[]]
  | c :: t => if c = '\n' then [] :: lines t else match lines t with
    | [] => [[c]]
    | l :: ls => (c :: l) :: ls

/-- The state before the first action and the states after the actions. -/
def visited : List Step → List StateView
  | [] => []
  | s :: rest => s.prev :: (s :: rest).map Step.next

/-- The lines of an observation: the header, a line per action with the numbers of the states before and after it, and a line per state with its
number, with an empty line before each. -/
def expected (W : Writer) (obs : List Step) : List Text :=
  ["New plan!!!".toList, [], "##Tasks##".toList] ++
    obs.mapIdx (fun i s => "[".toList ++ num i ++ ", ".toList ++ num (i + 1) ++ "]: ".toList ++ upper (W.call s.call)) ++
    [[], [], "##States##".toList] ++
    ((visited obs).mapIdx fun i v => [[], "[".toList ++ num i ++ "]: ".toList ++ completeState W v]).flatten

/-- The atoms and functions of a state are written within a line. -/
def FlatState (W : Writer) (v : StateView) : Prop := (∀ l ∈ v.lits, '\n' ∉ upper (W.atom l.atom)) ∧ ∀ f ∈ v.functions, '\n' ∉ upper f

/-- The library writes everything in the observation within a line. -/
def Flat (W : Writer) (obs : List Step) : Prop := ∀ s ∈ obs, '\n' ∉ upper (W.call s.call) ∧ FlatState W s.prev ∧ FlatState W s.next

/-! ### Lines -/

theorem lines_flat {a : Text} (h : '\n' ∉ a) : lines a = [a] := by
  induction a with
  | nil => rfl
  | cons c t ih =>
    unfold lines
    rw [if_neg (fun e => h (by simp [e])), ih (fun hm => h (by simp [hm]))]

theorem lines_cut {a b : Text} (h : '\n' ∉ a) : lines (a ++ '\n' :: b) = a :: lines b := by
  induction a with
  | nil => rfl
  | cons c t ih =>
    rw [List.cons_append]
    conv => lhs; unfold lines
    rw [if_neg (fun e => h (by simp [e])), ih (fun hm => h (by simp [hm]))]

theorem join_cons (sep p : Text) (ps : List Text) : join sep (p :: ps) = p ++ (ps.map fun q => sep ++ q).flatten := by
  induction ps generalizing p with
  | nil => simp [join]
  | cons q qs ih =>
    have : join sep (p :: q :: qs) = p ++ (sep ++ join sep (q :: qs)) := by simp [join]
    rw [this, ih]
    simp

theorem lines_sep1 (ps : List Text) : ∀ (p : Text) (b : Text), '\n' ∉ p → (∀ q ∈ ps, '\n' ∉ q) →
    lines (p ++ (ps.map fun q => ['\n'] ++ q).flatten ++ '\n' :: b) = p :: ps ++ lines b := by
  induction ps with
  | nil => intro p b hp _; simpa using lines_cut hp
  | cons q qs ih =>
    intro p b hp hq
    have : p ++ ((q :: qs).map fun q => ['\n'] ++ q).flatten ++ '\n' :: b =
        p ++ '\n' :: (q ++ (qs.map fun q => ['\n'] ++ q).flatten ++ '\n' :: b) := by simp
    rw [this, lines_cut hp, ih q b (hq q (by simp)) fun x hx => hq x (by simp [hx])]
    rfl

theorem lines_sep2 (ps : List Text) : ∀ (p : Text), '\n' ∉ p → (∀ q ∈ ps, '\n' ∉ q) → ∀ b : Option Text,
    lines (p ++ (ps.map fun q => ['\n', '\n'] ++ q).flatten ++ (match b with | some b => '\n' :: '\n' :: b | none => [])) =
      p :: (ps.map fun q => [[], q]).flatten ++ (match b with | some b => [] :: lines b | none => []) := by
  induction ps with
  | nil =>
    intro p hp _ b
    cases b with
    | none => simpa using lines_flat hp
    | some b =>
      simp only [List.map_nil, List.flatten_nil, List.append_nil]
      rw [lines_cut hp]
      rfl
  | cons q qs ih =>
    intro p hp hq b
    have : p ++ ((q :: qs).map fun q => ['\n', '\n'] ++ q).flatten ++ (match b with | some b => '\n' :: '\n' :: b | none => []) =
        p ++ '\n' :: ([] ++ '\n' :: (q ++ (qs.map fun q => ['\n', '\n'] ++ q).flatten ++ (match b with | some b => '\n' :: '\n' :: b | none => []))) := by
      simp
    rw [this, lines_cut hp, lines_cut (by simp), ih q (hq q (by simp)) (fun x hx => hq x (by simp [hx])) b]
    simp

theorem map_mapIdx' {α β γ : Type} (f : β → γ) (l : List α) (g : Nat → α → β) : (l.mapIdx g).map f = l.mapIdx fun i a => f (g i a) := by
  apply List.ext_getElem
  · simp
  · intro n h1 h2
    simp

/-! ### The lines of an observation -/

theorem collect_actions (W : Writer) : ∀ (obs : List Step) (i : Nat), (collect W i obs).1 = obs.mapIdx fun k s => actionLine W (i + k) s.call
  | [], _ => rfl
  | s :: rest, i => by
    unfold collect
    dsimp only
    rw [collect_actions W rest (i + 1), List.mapIdx_cons]
    congr 1
    congr 1
    funext k s
    congr 1
    omega

theorem collect_next (W : Writer) : ∀ (obs : List Step) (i : Nat), 0 < i → (collect W i obs).2 = obs.mapIdx fun k s => stateLine W (i + k + 1) s.next
  | [], _, _ => rfl
  | s :: rest, i, hi => by
    unfold collect
    dsimp only
    rw [collect_next W rest (i + 1) (by omega), List.mapIdx_cons, if_neg (by omega), List.nil_append]
    congr 1
    congr 1
    funext k s
    congr 1
    omega

theorem collect_states (W : Writer) (obs : List Step) : (collect W 0 obs).2 = (visited obs).mapIdx fun k v => stateLine W k v := by
  cases obs with
  | nil => rfl
  | cons s rest =>
    unfold collect visited
    dsimp only
    rw [collect_next W rest 1 (by omega), List.mapIdx_cons, List.map_cons, List.mapIdx_cons, if_pos rfl]
    simp only [List.singleton_append, List.cons.injEq, true_and, Nat.zero_add]
    rw [← List.map_eq_map]
    simp only [List.map_eq_map]
    apply List.ext_getElem
    · simp
    · intro n h1 h2
      simp only [List.getElem_mapIdx, List.getElem_map]
      congr 1
      omega

theorem nl_num (n : Nat) : '\n' ∉ num n := fun h => by
  have := Results.digit_num h
  exact absurd this (by decide)

theorem nl_join {sep : Text} {ps : List Text} (hs : '\n' ∉ sep) (hp : ∀ p ∈ ps, '\n' ∉ p) : '\n' ∉ join sep ps := by
  cases ps with
  | nil => simp [join]
  | cons p ps =>
    rw [join_cons]
    intro h
    rcases List.mem_append.mp h with h | h
    · exact hp p (by simp) h
    · rw [List.mem_flatten] at h
      obtain ⟨l, hl, hm⟩ := h
      obtain ⟨q, hq, rfl⟩ := List.mem_map.mp hl
      rcases List.mem_append.mp hm with hm | hm
      · exact hs hm
      · exact hp q (by simp [hq]) hm

theorem nl_state {W : Writer} {v : StateView} (h : FlatState W v) :
    '\n' ∉ completeState W v := by
  unfold completeState
  have hsp : '\n' ∉ " ".toList := by decide
  have p1 := nl_join hsp (ps := (v.lits.filter fun l => l.pos).map fun l => upper (W.atom l.atom)) (by
    intro p hp; obtain ⟨l, hl, rfl⟩ := List.mem_map.mp hp; exact h.1 l (List.mem_of_mem_filter hl))
  have p2 := nl_join hsp (ps := v.functions.map upper) (by
    intro p hp; obtain ⟨l, hl, rfl⟩ := List.mem_map.mp hp; exact h.2 _ hl)
  have p3 := nl_join hsp (ps := (v.lits.filter fun l => !l.pos).map fun l => "(not ".toList ++ upper (W.atom l.atom) ++ ")".toList) (by
    intro p hp; obtain ⟨l, hl, rfl⟩ := List.mem_map.mp hp
    simp only [List.mem_append, not_or]
    exact ⟨⟨by decide, h.1 l (List.mem_of_mem_filter hl)⟩, by decide⟩)
  dsimp only
  simp only [List.mem_append, not_or]
  exact ⟨⟨⟨⟨⟨⟨by decide, p1⟩, hsp⟩, p2⟩, hsp⟩, p3⟩, by decide⟩

theorem visited_mem {obs : List Step} {v : StateView} (h : v ∈ visited obs) : ∃ s ∈ obs, v = s.prev ∨ v = s.next := by
  cases obs with
  | nil => cases h
  | cons s rest =>
    rcases List.mem_cons.mp h with rfl | h
    · exact ⟨s, by simp, .inl rfl⟩
    · obtain ⟨t, ht, rfl⟩ := List.mem_map.mp h
      exact ⟨t, ht, .inr rfl⟩

theorem lines_plan {W : Writer} {obs : List Step} (h : Flat W obs) (b : Option Text) :
    lines (planText W obs ++ (match b with | some b => '\n' :: '\n' :: b | none => [])) =
      expected W obs ++ (match b with | some b => [] :: lines b | none => []) := by
  have ha : ∀ q ∈ (collect W 0 obs).1, '\n' ∉ q := by
    rw [collect_actions]
    intro q hq
    obtain ⟨k, hk, rfl⟩ := List.mem_mapIdx.mp hq
    unfold actionLine
    simp only [List.mem_append, not_or]
    exact ⟨⟨⟨⟨⟨by decide, nl_num _⟩, by decide⟩, nl_num _⟩, by decide⟩, (h _ (List.getElem_mem hk)).1⟩
  have hs : ∀ q ∈ (collect W 0 obs).2, '\n' ∉ q := by
    rw [collect_states]
    intro q hq
    obtain ⟨k, hk, rfl⟩ := List.mem_mapIdx.mp hq
    unfold stateLine
    simp only [List.mem_append, not_or]
    refine ⟨⟨⟨by decide, nl_num _⟩, by decide⟩, nl_state ?_⟩
    obtain ⟨s, hs, e | e⟩ := visited_mem (List.getElem_mem hk)
    · rw [e]; exact (h s hs).2.1
    · rw [e]; exact (h s hs).2.2
  have e1 : "New plan!!!\n\n".toList = "New plan!!!".toList ++ '\n' :: ([] ++ '\n' :: []) := by decide
  have e2 : "\n\n\n".toList = ['\n', '\n', '\n'] := by decide
  have e3 : "\n\n".toList = ['\n', '\n'] := by decide
  have e4 : "\n".toList = ['\n'] := by decide
  have f1 : '\n' ∉ "New plan!!!".toList := by decide
  have f2 : '\n' ∉ "##Tasks##".toList := by decide
  have f3 : '\n' ∉ "##States##".toList := by decide
  unfold planText expected
  dsimp only
  rw [e1, e2, e3, e4, join_cons, join_cons]
  generalize "New plan!!!".toList = x1 at *
  generalize "##Tasks##".toList = x2 at *
  generalize "##States##".toList = x3 at *
  have shape : x1 ++ '\n' :: ([] ++ '\n' :: []) ++ (x2 ++ ((collect W 0 obs).1.map fun q => ['\n'] ++ q).flatten) ++ ['\n', '\n', '\n'] ++
        (x3 ++ ((collect W 0 obs).2.map fun q => ['\n', '\n'] ++ q).flatten) ++ (match b with | some b => '\n' :: '\n' :: b | none => []) =
      x1 ++ '\n' :: ([] ++ '\n' :: (x2 ++ ((collect W 0 obs).1.map fun q => ['\n'] ++ q).flatten ++ '\n' :: ([] ++ '\n' :: ([] ++ '\n' ::
        (x3 ++ ((collect W 0 obs).2.map fun q => ['\n', '\n'] ++ q).flatten ++ (match b with | some b => '\n' :: '\n' :: b | none => [])))))) := by
    simp
  rw [shape, lines_cut f1, lines_cut (by simp), lines_sep1 _ _ _ f2 ha, lines_cut (by simp), lines_cut (by simp), lines_sep2 _ _ f3 hs b,
    collect_actions, collect_states]
  simp only [Nat.zero_add, map_mapIdx']
  simp [actionLine, stateLine]

/-! ### C116 -/

/-- C116. The file: every observation with its header; a line per action with the numbers of the states before and after it; a line per state:
the one before the first action and the one after each action. An empty line between two observations. -/
theorem C116_lines (W : Writer) (observations : List (List Step)) (hne : observations ≠ []) (h : ∀ obs ∈ observations, Flat W obs) :
    lines (create W none observations) = ((observations.map (expected W)).intersperse [[]]).flatten := by
  have e3 : "\n\n".toList = ['\n', '\n'] := by decide
  unfold create
  dsimp only
  rw [e3]
  clear e3
  induction observations with
  | nil => exact absurd rfl hne
  | cons obs rest ih =>
    cases rest with
    | nil =>
      have := lines_plan (h obs (by simp)) none
      simpa [join] using this
    | cons o os =>
      have e : join ['\n', '\n'] ((obs :: o :: os).map (planText W)) =
          planText W obs ++ '\n' :: '\n' :: join ['\n', '\n'] ((o :: os).map (planText W)) := by simp [join]
      rw [e, lines_plan (h obs (by simp)) (some _)]
      dsimp only
      rw [ih (by simp) fun x hx => h x (by simp [hx])]
      simp

/-- C116. With `n ≥ 1` actions there are `n + 1` states. If every component starts where the one before ended, the state with
number `k` is the one before action `k`, and state `n` the last one. -/
theorem C116_states (obs : List Step) (hne : obs ≠ []) :
    (visited obs).length = obs.length + 1 ∧ (visited obs)[obs.length]? = obs.getLast?.map Step.next ∧
    ((∀ (k : Nat) s t, obs[k]? = some s → obs[k + 1]? = some t → t.prev = s.next) →
      ∀ (k : Nat) s, obs[k]? = some s → (visited obs)[k]? = some s.prev ∧ (visited obs)[k + 1]? = some s.next) := by
  cases obs with
  | nil => exact absurd rfl hne
  | cons s0 rest =>
    refine ⟨by simp [visited], ?_, ?_⟩
    · unfold visited
      rw [List.length_cons, List.getElem?_cons_succ, List.getElem?_map, List.getLast?_eq_getElem?]
      simp
    · intro hch k s hk
      have hnext : (visited (s0 :: rest))[k + 1]? = some s.next := by
        unfold visited
        rw [List.getElem?_cons_succ, List.getElem?_map, hk]
        rfl
      refine ⟨?_, hnext⟩
      cases k with
      | zero =>
        simp only [List.getElem?_cons_zero, Option.some.injEq] at hk
        subst hk
        rfl
      | succ k =>
        have hlt : k + 1 < (s0 :: rest).length := (List.getElem?_eq_some_iff.mp hk).1
        have hk0 : (s0 :: rest)[k]? = some ((s0 :: rest)[k]) := List.getElem?_eq_getElem (by omega)
        rw [hch k _ s hk0 hk]
        unfold visited
        rw [List.getElem?_cons_succ, List.getElem?_map, hk0]
        rfl

/-- C116. The text of a state over the typed ground atoms of the domain: first the true ones, then the functions, then the false
ones within `not`; every ground atom exactly once. -/
theorem C116_state (W : Writer) (D : Domain) (s : State) (objs : Sig) (v : StateView) (hn : v.lits.Nodup)
    (hv : ∀ l, l ∈ v.lits ↔ l ∈ stateSnapshot D s objs) :
    ∃ yes no : List Atom, yes.Nodup ∧ no.Nodup ∧ (∀ a, a ∈ yes ↔ a ∈ groundedVocab D objs ∧ a ∈ s) ∧
      (∀ a, a ∈ no ↔ a ∈ groundedVocab D objs ∧ a ∉ s) ∧
      completeState W v = "(".toList ++ join " ".toList (yes.map fun a => upper (W.atom a)) ++ " ".toList ++
        join " ".toList (v.functions.map upper) ++ " ".toList ++
        join " ".toList (no.map fun a => "(not ".toList ++ upper (W.atom a) ++ ")".toList) ++ ")".toList := by
  have snap : ∀ l : Lit, l ∈ stateSnapshot D s objs ↔ l.atom ∈ groundedVocab D objs ∧ (l.pos = true ↔ l.atom ∈ s) := by
    intro l
    obtain ⟨n, as, p⟩ := l
    unfold stateSnapshot
    simp only [Finset.mem_union, Finset.mem_image, Finset.mem_filter, Finset.mem_sdiff, Lit.mk.injEq, Lit.atom]
    constructor
    · rintro (⟨a, ⟨h1, h2⟩, rfl, rfl, rfl⟩ | ⟨a, ⟨h1, h2⟩, rfl, rfl, rfl⟩)
      · exact ⟨h1, by simpa using h2⟩
      · refine ⟨h1, by simpa using fun h => h2 ⟨h1, h⟩⟩
    · rintro ⟨h1, h2⟩
      cases p
      · right
        refine ⟨_, ⟨h1, fun h => ?_⟩, rfl, rfl, rfl⟩
        simpa using h2.mpr h.2
      · left
        exact ⟨_, ⟨h1, h2.mp rfl⟩, rfl, rfl, rfl⟩
  refine ⟨(v.lits.filter fun l => l.pos).map Lit.atom, (v.lits.filter fun l => !l.pos).map Lit.atom, ?_, ?_, ?_, ?_, ?_⟩
  · refine List.Nodup.map_on ?_ (hn.filter _)
    rintro ⟨n, as, p⟩ h ⟨n', as', p'⟩ h' e
    simp only [List.mem_filter] at h h'
    simp only [Lit.atom, Atom.mk.injEq] at e
    obtain ⟨rfl, rfl⟩ := e
    rw [h.2, h'.2]
  · refine List.Nodup.map_on ?_ (hn.filter _)
    rintro ⟨n, as, p⟩ h ⟨n', as', p'⟩ h' e
    simp only [List.mem_filter, Bool.not_eq_true'] at h h'
    simp only [Lit.atom, Atom.mk.injEq] at e
    obtain ⟨rfl, rfl⟩ := e
    rw [h.2, h'.2]
  · intro a
    simp only [List.mem_map, List.mem_filter, hv, snap]
    constructor
    · rintro ⟨l, ⟨⟨h1, h2⟩, h3⟩, rfl⟩
      exact ⟨h1, h2.mp h3⟩
    · rintro ⟨h1, h2⟩
      exact ⟨⟨a.name, a.args, true⟩, ⟨⟨h1, by simpa [Lit.atom] using h2⟩, rfl⟩, rfl⟩
  · intro a
    simp only [List.mem_map, List.mem_filter, hv, snap, Bool.not_eq_true']
    constructor
    · rintro ⟨l, ⟨⟨h1, h2⟩, h3⟩, rfl⟩
      exact ⟨h1, fun h => by rw [h2.mpr h] at h3; cases h3⟩
    · rintro ⟨h1, h2⟩
      exact ⟨⟨a.name, a.args, false⟩, ⟨⟨h1, by simpa [Lit.atom] using h2⟩, rfl⟩, rfl⟩
  · unfold completeState
    dsimp only
    simp only [List.map_map]
    rfl

/-- What a reader of the file needs: the lines of the actions and those of the states, per header. Action lines have a comma after the first
number, state lines a bracket. -/
def read (ls : List Text) : List (List Text × List Text) :=
  (ls.foldr (fun l acc =>
    if l = "New plan!!!".toList then (([], []), acc.1 :: acc.2)
    else match l with
      | '[' :: rest => match rest.dropWhile Char.isDigit with
        | ',' :: _ => ((l :: acc.1.1, acc.1.2), acc.2)
        | ']' :: _ => ((acc.1.1, l :: acc.1.2), acc.2)
        | _ => acc
      | _ => acc) ((([], []), []) : (List Text × List Text) × List (List Text × List Text))).2

/-- C116. The file is unambiguous: a reader gets back, per observation, the numbered actions and the numbered states. -/
theorem C116_read (W : Writer) (observations : List (List Step)) (hne : observations ≠ []) (h : ∀ obs ∈ observations, Flat W obs) :
    read (lines (create W none observations)) = observations.map fun obs =>
      (obs.mapIdx fun i s => "[".toList ++ num i ++ ", ".toList ++ num (i + 1) ++ "]: ".toList ++ upper (W.call s.call),
       (visited obs).mapIdx fun i v => "[".toList ++ num i ++ "]: ".toList ++ completeState W v) := by
  rw [C116_lines W observations hne h]
  unfold read
  generalize hg : (fun (l : Text) (acc : (List Text × List Text) × List (List Text × List Text)) =>
    if l = "New plan!!!".toList then (([], []), acc.1 :: acc.2)
    else match l with
      | '[' :: rest => match rest.dropWhile Char.isDigit with
        | ',' :: _ => ((l :: acc.1.1, acc.1.2), acc.2)
        | ']' :: _ => ((acc.1.1, l :: acc.1.2), acc.2)
        | _ => acc
      | _ => acc) = g
  have gE : ∀ acc, g [] acc = acc := by intro acc; rw [← hg]; rfl
  have gT : ∀ acc, g "##Tasks##".toList acc = acc := by intro acc; rw [← hg]; rfl
  have gS : ∀ acc, g "##States##".toList acc = acc := by intro acc; rw [← hg]; rfl
  have gN : ∀ acc, g "New plan!!!".toList acc = (([], []), acc.1 :: acc.2) := by intro acc; rw [← hg]; simp
  have drop : ∀ (i : Nat) (c : Char) (t : Text), c.isDigit = false → (num i ++ c :: t).dropWhile Char.isDigit = c :: t := by
    intro i c t hc
    rw [List.dropWhile_append_of_pos (fun x hx => Results.digit_num hx)]
    simp [List.dropWhile, hc]
  have notN : ∀ t : Text, '[' :: t ≠ "New plan!!!".toList := by
    intro t e
    have : "New plan!!!".toList = 'N' :: "ew plan!!!".toList := by decide
    rw [this] at e
    injection e with e _
    exact absurd e (by decide)
  have gA : ∀ (i : Nat) (t : Text) acc, g ("[".toList ++ num i ++ ", ".toList ++ num (i + 1) ++ "]: ".toList ++ t) acc =
      ((("[".toList ++ num i ++ ", ".toList ++ num (i + 1) ++ "]: ".toList ++ t) :: acc.1.1, acc.1.2), acc.2) := by
    intro i t acc
    have e : "[".toList ++ num i ++ ", ".toList ++ num (i + 1) ++ "]: ".toList ++ t =
        '[' :: (num i ++ ',' :: (' ' :: (num (i + 1) ++ ("]: ".toList ++ t)))) := by
      have e1 : "[".toList = ['['] := by decide
      have e2 : ", ".toList = [',', ' '] := by decide
      rw [e1, e2]
      simp
    rw [e, ← hg]
    dsimp only
    rw [if_neg (notN _)]
    have hd := drop i ',' (' ' :: (num (i + 1) ++ ("]: ".toList ++ t))) (by decide)
    generalize num i ++ ',' :: ' ' :: (num (i + 1) ++ ("]: ".toList ++ t)) = r at hd ⊢
    simp only [hd]
  have gV : ∀ (i : Nat) (t : Text) acc, g ("[".toList ++ num i ++ "]: ".toList ++ t) acc =
      ((acc.1.1, ("[".toList ++ num i ++ "]: ".toList ++ t) :: acc.1.2), acc.2) := by
    intro i t acc
    have e : "[".toList ++ num i ++ "]: ".toList ++ t = '[' :: (num i ++ ']' :: (':' :: ' ' :: t)) := by
      have e1 : "[".toList = ['['] := by decide
      have e2 : "]: ".toList = [']', ':', ' '] := by decide
      rw [e1, e2]
      simp
    rw [e, ← hg]
    dsimp only
    rw [if_neg (notN _)]
    have hd := drop i ']' (':' :: ' ' :: t) (by decide)
    generalize num i ++ ']' :: ':' :: ' ' :: t = r at hd ⊢
    simp only [hd]
  have hstates : ∀ (l : List Text) acc, (∀ q ∈ l, ∃ i t, q = "[".toList ++ num i ++ "]: ".toList ++ t) →
      ((l.map fun q => [[], q]).flatten).foldr g acc = ((acc.1.1, l ++ acc.1.2), acc.2) := by
    intro l
    induction l with
    | nil => intro acc _; rfl
    | cons q qs ih =>
      intro acc hq
      rw [List.map_cons, List.flatten_cons, List.foldr_append, ih acc fun x hx => hq x (by simp [hx])]
      obtain ⟨i, t, rfl⟩ := hq q (by simp)
      simp only [List.foldr_cons, List.foldr_nil]
      rw [gV, gE]
      rfl
  have hactions : ∀ (l : List Text) acc, (∀ q ∈ l, ∃ i t, q = "[".toList ++ num i ++ ", ".toList ++ num (i + 1) ++ "]: ".toList ++ t) →
      l.foldr g acc = ((l ++ acc.1.1, acc.1.2), acc.2) := by
    intro l
    induction l with
    | nil => intro acc _; rfl
    | cons q qs ih =>
      intro acc hq
      rw [List.foldr_cons, ih acc fun x hx => hq x (by simp [hx])]
      obtain ⟨i, t, rfl⟩ := hq q (by simp)
      rw [gA]
      rfl
  have hblock : ∀ (obs : List Step) (done : List (List Text × List Text)), (expected W obs).foldr g (([], []), done) =
      (([], []), (obs.mapIdx fun i s => "[".toList ++ num i ++ ", ".toList ++ num (i + 1) ++ "]: ".toList ++ upper (W.call s.call),
       (visited obs).mapIdx fun i v => "[".toList ++ num i ++ "]: ".toList ++ completeState W v) :: done) := by
    intro obs done
    unfold expected
    have e : ((visited obs).mapIdx fun i v => [[], "[".toList ++ num i ++ "]: ".toList ++ completeState W v]) =
        ((visited obs).mapIdx fun i v => "[".toList ++ num i ++ "]: ".toList ++ completeState W v).map fun q => [[], q] := by
      rw [map_mapIdx']
    rw [e, List.foldr_append, List.foldr_append, List.foldr_append, hstates _ _ (by
      intro q hq
      obtain ⟨k, hk, rfl⟩ := List.mem_mapIdx.mp hq
      exact ⟨k, _, rfl⟩)]
    simp only [List.foldr_cons, List.foldr_nil]
    rw [gS, gE, gE, hactions _ _ (by
      intro q hq
      obtain ⟨k, hk, rfl⟩ := List.mem_mapIdx.mp hq
      exact ⟨k, _, rfl⟩), gT, gE, gN]
    simp
  clear h
  have all : ∀ l : List (List Step), l ≠ [] → (((l.map (expected W)).intersperse [[]]).flatten).foldr g (([], []), []) =
      (([], []), l.map fun obs => (obs.mapIdx fun i s => "[".toList ++ num i ++ ", ".toList ++ num (i + 1) ++ "]: ".toList ++ upper (W.call s.call),
       (visited obs).mapIdx fun i v => "[".toList ++ num i ++ "]: ".toList ++ completeState W v)) := by
    intro l
    induction l with
    | nil => intro h; exact absurd rfl h
    | cons obs rest ih =>
      intro _
      cases rest with
      | nil =>
        simp only [List.map_cons, List.map_nil, List.intersperse_single, List.flatten_cons, List.flatten_nil, List.append_nil]
        exact hblock obs []
      | cons o os =>
        have e : (((obs :: o :: os).map (expected W)).intersperse [[]]).flatten =
            expected W obs ++ ([[]] ++ (((o :: os).map (expected W)).intersperse [[]]).flatten) := by simp
        rw [e, List.foldr_append, List.foldr_append, ih (by simp)]
        simp only [List.foldr_cons, List.foldr_nil]
        rw [gE, hblock]
        rfl
  rw [all observations hne]

/-- C116. An existing file is never changed, whatever the trajectories are now. -/
theorem C116_existing (W : Writer) (t : Text) (observations : List (List Step)) : create W (some t) observations = t := rfl

/-! ### Example -/

/-- Two actions over three states. -/
def sampleWriter : Writer := ⟨fun a => "(".toList ++ a.name.toList ++ ")".toList, fun c => "(".toList ++ c.name.toList ++ ")".toList⟩

/-- The states. -/
def sampleState (a b : Bool) : StateView := ⟨[⟨"p", [], a⟩, ⟨"q", [], b⟩], ["(= (f ) 1)".toList]⟩

/-- The observation. -/
def sampleObs : List Step := [⟨⟨"go", []⟩, sampleState true false, sampleState false false⟩, ⟨⟨"stay", []⟩, sampleState false false, sampleState false true⟩]

example : Flat sampleWriter sampleObs := by unfold Flat FlatState; decide +kernel

example : planText sampleWriter sampleObs = ("New plan!!!\n\n##Tasks##\n[0, 1]: (GO)\n[1, 2]: (STAY)\n\n\n##States##\n\n[0]: ((P) (= (F ) 1) (not (Q)))" ++
    "\n\n[1]: ( (= (F ) 1) (not (P)) (not (Q)))\n\n[2]: ((Q) (= (F ) 1) (not (P)))").toList := by decide +kernel

/-- In an observation whose second component does not start where the first ended, the state before the second action is not in the file. -/
example : visited [⟨⟨"go", []⟩, sampleState true false, sampleState false false⟩, ⟨⟨"go", []⟩, sampleState true true, sampleState false true⟩] =
    [sampleState true false, sampleState false false, sampleState false true] := rfl

end PlanMiner
end Props
