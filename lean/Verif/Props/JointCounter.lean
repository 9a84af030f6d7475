import Verif.Model.JointCounter
import Mathlib.Data.List.Basic
import Mathlib.Data.Rat.Defs

/-! C106: the rate of joint actions in which a single agent acts. -/
namespace Props
namespace Joint
open Model Model.Joint

/-- An agent's action in a trajectory: the text between its brackets and the text before it. -/
structure Act where
  before : Text
  body : Text

/-- A line of a trajectory with a joint action. -/
structure JointLine where
  lead : Text
  acts : List Act
  tail : Text

/-- The actions as written. -/
def render (acts : List Act) : Text := acts.flatMap fun a => a.before ++ '(' :: a.body ++ [')']

/-- The line as written. -/
def JointLine.text (l : JointLine) : Text := l.lead ++ "(operators:".toList ++ render l.acts ++ l.tail

/-- Its parts are as the planner's trajectories have them: white space around the actions, no brackets within them,
and the bracket of the list closed at the end. -/
structure JointLine.WF (l : JointLine) : Prop where
  lead : ∀ c ∈ l.lead, isSpace c = true
  before : ∀ a ∈ l.acts, ∀ c ∈ a.before, isSpace c = true
  body : ∀ a ∈ l.acts, '(' ∉ a.body ∧ ')' ∉ a.body
  tail : ∃ w w', l.tail = w ++ ')' :: w' ∧ (∀ c ∈ w, isSpace c = true) ∧ ∀ c ∈ w', isSpace c = true

/-- A body is a nop: its first word is `nop`, or it is the single word `no-op` or `noop`; upper and lower case alike. -/
def NopBody (t : Text) : Prop :=
  (∃ ws, words (lower t) = "nop".toList :: ws) ∨ words (lower t) = ["no-op".toList] ∨ words (lower t) = ["noop".toList]

theorem find_sep {w : Text} (hw : '(' ∉ w) (t : Text) : findall (w ++ t) = findall t := by
  induction w with
  | nil => rfl
  | cons c w ih =>
    unfold findall at *
    rw [List.cons_append, findallFrom]
    simp only [List.mem_cons, not_or] at hw
    rw [if_neg (Ne.symm hw.1), ih hw.2]

theorem find_open {b : Text} (hb : ')' ∉ b) (m t : Text) : findallFrom (some m) (b ++ ')' :: t) = (m ++ b ++ [')']) :: findall t := by
  induction b generalizing m with
  | nil => rw [List.nil_append, findallFrom]; simp [findall]
  | cons c b ih =>
    simp only [List.mem_cons, not_or] at hb
    rw [List.cons_append, findallFrom]
    rw [if_neg (Ne.symm hb.1), ih hb.2]
    simp

theorem find_act {b : Text} (hb : ')' ∉ b) (t : Text) : findall ('(' :: b ++ ')' :: t) = ('(' :: b ++ [')']) :: findall t := by
  unfold findall
  rw [List.cons_append, findallFrom]
  rw [if_pos rfl, find_open hb]
  rfl

theorem space_not_paren {c : Char} (h : isSpace c = true) : c ≠ '(' ∧ c ≠ ')' := by
  constructor <;> rintro rfl <;> revert h <;> decide

theorem find_render {acts : List Act} (hb : ∀ a ∈ acts, ∀ c ∈ a.before, isSpace c = true) (ha : ∀ a ∈ acts, '(' ∉ a.body ∧ ')' ∉ a.body) (t : Text) :
    findall (render acts ++ t) = (acts.map fun a => '(' :: a.body ++ [')']) ++ findall t := by
  induction acts with
  | nil => rfl
  | cons a acts ih =>
    have h1 : render (a :: acts) ++ t = a.before ++ ('(' :: a.body ++ ')' :: (render acts ++ t)) := by
      simp [render]
    have hsep : '(' ∉ a.before := fun h => (space_not_paren (hb a (by simp) _ h)).1 rfl
    rw [h1, find_sep hsep, find_act (ha a (by simp)).2, ih (fun b h => hb b (List.mem_cons_of_mem _ h)) (fun b h => ha b (List.mem_cons_of_mem _ h))]
    rfl

theorem find_none {t : Text} (h : '(' ∉ t) : findall t = [] := by
  have := find_sep h []
  rw [List.append_nil] at this
  exact this

theorem dropWhile_space {w t : Text} (hw : ∀ c ∈ w, isSpace c = true) : (w ++ t).dropWhile isSpace = t.dropWhile isSpace := by
  induction w with
  | nil => rfl
  | cons c w ih =>
    rw [List.cons_append, List.dropWhile_cons, hw c (by simp), if_pos rfl, ih fun c h => hw c (List.mem_cons_of_mem _ h)]

theorem strip_eq {w t w' : Text} {c d : Char} (hw : ∀ c ∈ w, isSpace c = true) (hw' : ∀ c ∈ w', isSpace c = true) (hc : isSpace c = false) (hd : isSpace d = false) :
    strip (w ++ (c :: t ++ d :: w')) = c :: t ++ [d] := by
  unfold strip
  rw [dropWhile_space hw, List.cons_append, List.dropWhile_cons, hc]
  simp only [Bool.false_eq_true, if_false]
  have : (c :: (t ++ d :: w')).reverse = w'.reverse ++ (d :: (c :: t).reverse) := by simp
  rw [this, dropWhile_space (fun c h => hw' c (List.mem_reverse.mp h)), List.dropWhile_cons, hd]
  simp

/-- The line stripped. -/
def core (acts : List Act) (w : Text) : Text := "(operators:".toList ++ render acts ++ w ++ [')']

theorem strip_line {l : JointLine} (h : l.WF) : ∃ w, (∀ c ∈ w, isSpace c = true) ∧ strip l.text = core l.acts w := by
  obtain ⟨w, w', ht, hw, hw'⟩ := h.tail
  refine ⟨w, hw, ?_⟩
  unfold JointLine.text core
  rw [ht]
  have e : l.lead ++ "(operators:".toList ++ render l.acts ++ (w ++ ')' :: w') =
      l.lead ++ ('(' :: ("operators:".toList ++ render l.acts ++ w) ++ ')' :: w') := by
    have : "(operators:".toList = '(' :: "operators:".toList := by decide
    rw [this]; simp only [List.append_assoc, List.cons_append]
  rw [e, strip_eq h.lead hw' (by decide) (by decide)]
  have : "(operators:".toList = '(' :: "operators:".toList := by decide
  rw [this]; simp only [List.append_assoc, List.cons_append]

theorem lower_append (a b : Text) : lower (a ++ b) = lower a ++ lower b := List.map_append

theorem dropWhile_keep (u v : Text) (hv : ∀ x ∈ v, isSpace x = false) : v <:+ (u ++ v).dropWhile isSpace := by
  induction u with
  | nil =>
    cases v with
    | nil => exact List.nil_suffix
    | cons d v => rw [List.nil_append, List.dropWhile_cons, hv d (by simp)]; exact List.suffix_refl _
  | cons c u ih =>
    rw [List.cons_append, List.dropWhile_cons]
    by_cases h : isSpace c = true
    · rw [if_pos h]; exact ih
    · rw [if_neg h]; exact ⟨c :: u, rfl⟩

theorem strip_prefix {p t : Text} (h0 : p ≠ []) (hp : ∀ x ∈ p, isSpace x = false) : p <+: strip (p ++ t) := by
  unfold strip
  cases p with
  | nil => exact absurd rfl h0
  | cons c p =>
    rw [List.cons_append, List.dropWhile_cons, hp c (by simp)]
    simp only [Bool.false_eq_true, if_false]
    have e : (c :: (p ++ t)).reverse = t.reverse ++ (c :: p).reverse := by simp
    rw [e, ← List.reverse_suffix, List.reverse_reverse]
    exact dropWhile_keep _ _ fun x hx => hp x (List.mem_reverse.mp hx)

theorem prefix_lower {p t : Text} (h : p <+: t) : lower p <+: lower t := by
  obtain ⟨u, rfl⟩ := h
  exact ⟨lower u, (lower_append _ _).symm⟩

theorem ops_lower : lower "operators:".toList = "operators:".toList := by decide
theorem ops_space : ∀ x ∈ "operators:".toList, isSpace x = false := by decide
theorem lit_ops : "(operators:".toList = '(' :: "operators:".toList := by decide

theorem first_token (acts : List Act) (w : Text) (hb : ∀ a ∈ acts, ∀ c ∈ a.before, isSpace c = true)
    (ha : ∀ a ∈ acts, '(' ∉ a.body ∧ ')' ∉ a.body) (hw : ∀ c ∈ w, isSpace c = true) :
    ∃ u ts, findall (core acts w) = ('(' :: ("operators:".toList ++ u) ++ [')']) :: ts := by
  cases acts with
  | nil =>
    refine ⟨w, [], ?_⟩
    have hn : ')' ∉ "operators:".toList ++ w := by
      rw [List.mem_append, not_or]
      exact ⟨by decide, fun h => (space_not_paren (hw _ h)).2 rfl⟩
    have : core [] w = '(' :: ("operators:".toList ++ w) ++ ')' :: [] := by
      unfold core render; rw [lit_ops]; simp only [List.flatMap_nil, List.append_nil, List.append_assoc, List.cons_append]
    rw [this, find_act hn]
    rfl
  | cons a acts =>
    refine ⟨a.before ++ '(' :: a.body, findall (render acts ++ w ++ [')']), ?_⟩
    have hn : ')' ∉ "operators:".toList ++ (a.before ++ '(' :: a.body) := by
      simp only [List.mem_append, List.mem_cons, not_or]
      exact ⟨by decide, fun h => (space_not_paren (hb a (by simp) _ h)).2 rfl, by decide, (ha a (by simp)).2⟩
    have : core (a :: acts) w = '(' :: ("operators:".toList ++ (a.before ++ '(' :: a.body)) ++ ')' :: (render acts ++ w ++ [')']) := by
      unfold core render; rw [lit_ops]
      simp only [List.flatMap_cons, List.append_assoc, List.cons_append, List.nil_append]
    rw [this, find_act hn]

/-- **C106.** On a line with a joint action the tool finds the actions of the agents, each once and in order. -/
theorem C106_actions {l : JointLine} (h : l.WF) :
    "(operators:".toList.isPrefixOf (strip l.text) = true ∧
    filtered (strip l.text) [] (findall (strip l.text)) = l.acts.map fun a => '(' :: a.body ++ [')'] := by
  obtain ⟨w, hw, hs⟩ := strip_line h
  rw [hs]
  constructor
  · rw [List.isPrefixOf_iff_prefix]
    unfold core
    exact ⟨render l.acts ++ w ++ [')'], by simp only [List.append_assoc]⟩
  · obtain ⟨u, ts, ht⟩ := first_token l.acts w h.before h.body hw
    rw [ht, filtered]
    have h1 : (('(' :: ("operators:".toList ++ u) ++ [')']).drop 1).dropLast = "operators:".toList ++ u := by
      rw [List.cons_append, List.drop_succ_cons, List.drop_zero, List.dropLast_concat]
    have h2 : "operators:".toList.isPrefixOf (lower (strip ("operators:".toList ++ u))) = true := by
      rw [List.isPrefixOf_iff_prefix]
      have := prefix_lower (strip_prefix (p := "operators:".toList) (t := u) (by decide) ops_space)
      rwa [ops_lower] at this
    rw [h1, if_pos h2]
    have h3 : core l.acts w = '(' :: ("operators:".toList ++ (render l.acts ++ w ++ [')'])) := by
      unfold core; rw [lit_ops]; simp only [List.append_assoc, List.cons_append]
    have h4 : after "operators:".toList (lower (core l.acts w)) = some (lower (render l.acts ++ w ++ [')'])) := by
      rw [h3]
      have : lower ('(' :: ("operators:".toList ++ (render l.acts ++ w ++ [')']))) =
          '(' :: ("operators:".toList ++ lower (render l.acts ++ w ++ [')'])) := by
        show Char.toLower '(' :: lower _ = _
        rw [lower_append, ops_lower]
        rfl
      rw [this, after, if_neg (by simp [List.isPrefixOf])]
      generalize lower (render l.acts ++ w ++ [')']) = t
      have : "operators:".toList ++ t = 'o' :: ("perators:".toList ++ t) := rfl
      rw [this, after, ← this, if_pos (by rw [List.isPrefixOf_iff_prefix]; exact List.prefix_append _ _), List.drop_left]
    rw [h4]
    dsimp only
    have h5 : (core l.acts w).drop ((core l.acts w).length - (lower (render l.acts ++ w ++ [')'])).length) = render l.acts ++ w ++ [')'] := by
      have hlen : (core l.acts w).length - (lower (render l.acts ++ w ++ [')'])).length = "(operators:".toList.length := by
        unfold core lower
        simp only [List.length_append, List.length_map]
        omega
      rw [hlen]
      unfold core
      rw [List.append_assoc, List.append_assoc, List.drop_left, List.append_assoc]
    rw [h5, List.append_assoc, find_render h.before h.body, find_none, List.append_nil]
    simp only [List.mem_append, List.mem_singleton, not_or]
    exact ⟨fun h => (space_not_paren (hw _ h)).1 rfl, by decide⟩

theorem isSpace_toLower (c : Char) : isSpace c.toLower = isSpace c := by
  by_cases h : c.isUpper = true
  · have h1 : ∀ n : Nat, 65 ≤ n → n ≤ 90 → isSpace (Char.ofNat n) = false ∧ isSpace (Char.ofNat n).toLower = false := by
      have : ∀ n < 91, 65 ≤ n → isSpace (Char.ofNat n) = false ∧ isSpace (Char.ofNat n).toLower = false := by decide +kernel
      exact fun n a b => this n (by omega) a
    have h2 : 65 ≤ c.toNat ∧ c.toNat ≤ 90 := by
      unfold Char.isUpper at h
      simp only [Bool.and_eq_true, decide_eq_true_eq, ge_iff_le, UInt32.le_iff_toNat_le] at h
      exact h
    have h3 := h1 c.toNat h2.1 h2.2
    rw [Char.ofNat_toNat] at h3
    rw [h3.1, h3.2]
  · have : c.toLower = c := by
      unfold Char.toLower
      unfold Char.isUpper at h
      simp only [Bool.and_eq_true, decide_eq_true_eq] at h
      rw [dif_neg h]
    rw [this]

theorem wordsFrom_lower (t cur : Text) : wordsFrom (lower cur) (lower t) = (wordsFrom cur t).map lower := by
  induction t generalizing cur with
  | nil =>
    show wordsFrom (lower cur) [] = _
    unfold wordsFrom
    by_cases h : cur = []
    · subst h; rfl
    · have : lower cur ≠ [] := fun e => h (List.map_eq_nil_iff.mp e)
      rw [if_neg h, if_neg this]; rfl
  | cons c t ih =>
    show wordsFrom (lower cur) (c.toLower :: lower t) = _
    rw [wordsFrom, wordsFrom, isSpace_toLower]
    have e0 : (lower cur = []) ↔ cur = [] := List.map_eq_nil_iff
    by_cases hs : isSpace c = true
    · rw [if_pos hs, if_pos hs]
      by_cases h : cur = []
      · rw [if_pos h, if_pos (e0.mpr h)]; exact ih []
      · rw [if_neg h, if_neg (fun e => h (e0.mp e)), List.map_cons]
        rw [← ih []]; rfl
    · rw [if_neg hs, if_neg hs, ← ih]
      rw [lower_append]; rfl

theorem words_lower (t : Text) : words (lower t) = (words t).map lower := wordsFrom_lower t []

theorem words_mem {t cur : Text} (hc : ∀ c ∈ cur, isSpace c = false) : ∀ w ∈ wordsFrom cur t, w ≠ [] ∧ ∀ c ∈ w, isSpace c = false := by
  induction t generalizing cur with
  | nil =>
    intro w hw
    unfold wordsFrom at hw
    split_ifs at hw with h
    · cases hw
    · rw [List.mem_singleton] at hw; subst hw; exact ⟨h, hc⟩
  | cons c t ih =>
    intro w hw
    rw [wordsFrom] at hw
    split_ifs at hw with h1 h2
    · exact ih (by simp) w hw
    · rcases List.mem_cons.mp hw with rfl | hw
      · exact ⟨h2, hc⟩
      · exact ih (by simp) w hw
    · refine ih ?_ w hw
      intro x hx
      rcases List.mem_append.mp hx with hx | hx
      · exact hc x hx
      · rw [List.mem_singleton] at hx; subst hx; simpa using h1

theorem lower_join (ws : List Text) : lower (joinWords ws) = joinWords (ws.map lower) := by
  induction ws with
  | nil => rfl
  | cons w ws ih =>
    cases ws with
    | nil => rfl
    | cons v ws =>
      show lower (w ++ ' ' :: joinWords (v :: ws)) = lower w ++ ' ' :: joinWords ((v :: ws).map lower)
      rw [lower_append, ← ih]
      rfl

/-- A text without spaces is a joined list of words only if it is the only word. -/
theorem join_eq_word {ws : List Text} {x : Text} (h0 : x ≠ []) (hx : ' ' ∉ x) (h : joinWords ws = x) : ws = [x] := by
  match ws with
  | [] => exact absurd h.symm h0
  | [w] => rw [show w = x from h]
  | w :: v :: ws =>
    exfalso
    apply hx
    rw [← h]
    show ' ' ∈ w ++ ' ' :: _
    simp

theorem join_prefix {ws : List Text} (hw : ∀ w ∈ ws, w ≠ [] ∧ ∀ c ∈ w, isSpace c = false) :
    "nop ".toList <+: joinWords ws ↔ ∃ v vs, ws = "nop".toList :: v :: vs := by
  have lit : "nop ".toList = "nop".toList ++ [' '] := by decide
  constructor
  · rintro ⟨u, hu⟩
    match ws, hw with
    | [], _ => exact absurd hu (by rw [lit]; simp [joinWords])
    | [w], hw =>
      exfalso
      have : ' ' ∈ w := by
        have : joinWords [w] = w := rfl
        rw [← this, ← hu, lit]; simp
      have := (hw w (by simp)).2 _ this
      revert this; decide
    | w :: v :: vs, hw =>
      have e : "nop".toList ++ ' ' :: u = w ++ ' ' :: joinWords (v :: vs) := by
        have : joinWords (w :: v :: vs) = w ++ ' ' :: joinWords (v :: vs) := rfl
        rw [← this, ← hu, lit]; simp
      have hsw : ' ' ∉ w := fun k => by
        have := (hw w (by simp)).2 _ k
        revert this; decide
      have : "nop".toList = w := by
        rcases List.append_eq_append_iff.mp e with ⟨x, h1, h2⟩ | ⟨x, h1, h2⟩
        · cases x with
          | nil => rw [h1, List.append_nil]
          | cons d x =>
            rw [List.cons_append] at h2
            have := (List.cons.inj h2).1
            exact absurd (by rw [h1, ← this]; simp) hsw
        · cases x with
          | nil => rw [h1, List.append_nil]
          | cons d x =>
            rw [List.cons_append] at h2
            have := (List.cons.inj h2).1
            exact absurd (show ' ' ∈ "nop".toList by rw [h1, ← this]; simp) (by decide)
      exact ⟨v, vs, by rw [this]⟩
  · rintro ⟨v, vs, rfl⟩
    exact ⟨joinWords (v :: vs), by rw [lit]; show _ = "nop".toList ++ ' ' :: _; simp⟩

theorem words_wf (t : Text) : ∀ w ∈ words t, w ≠ [] ∧ ∀ c ∈ w, isSpace c = false := words_mem (by simp)

theorem mem_words {t cur : Text} : ∀ w ∈ wordsFrom cur t, ∀ c ∈ w, c ∈ cur ∨ c ∈ t := by
  induction t generalizing cur with
  | nil =>
    intro w hw c hc
    unfold wordsFrom at hw
    split_ifs at hw with h
    · cases hw
    · rw [List.mem_singleton] at hw; subst hw; exact Or.inl hc
  | cons d t ih =>
    intro w hw c hc
    rw [wordsFrom] at hw
    split_ifs at hw with h1 h2
    · rcases ih w hw c hc with h | h
      · cases h
      · exact Or.inr (List.mem_cons_of_mem _ h)
    · rcases List.mem_cons.mp hw with rfl | hw
      · exact Or.inl hc
      · rcases ih w hw c hc with h | h
        · cases h
        · exact Or.inr (List.mem_cons_of_mem _ h)
    · rcases ih w hw c hc with h | h
      · rcases List.mem_append.mp h with h | h
        · exact Or.inl h
        · rw [List.mem_singleton] at h; subst h; exact Or.inr (by simp)
      · exact Or.inr (List.mem_cons_of_mem _ h)

theorem lower_paren {t : Text} (h : '(' ∉ t ∧ ')' ∉ t) : '(' ∉ lower t ∧ ')' ∉ lower t := by
  have key : ∀ c d : Char, (d = '(' ∨ d = ')') → c.toLower = d → c = d := by
    intro c d hd e
    by_cases hu : c.isUpper = true
    · exfalso
      have h2 : 65 ≤ c.toNat ∧ c.toNat ≤ 90 := by
        unfold Char.isUpper at hu
        simp only [Bool.and_eq_true, decide_eq_true_eq, ge_iff_le, UInt32.le_iff_toNat_le] at hu
        exact hu
      have : ∀ n < 91, 65 ≤ n → (Char.ofNat n).toLower ≠ '(' ∧ (Char.ofNat n).toLower ≠ ')' := by decide +kernel
      have := this c.toNat (by omega) h2.1
      rw [Char.ofNat_toNat, e] at this
      rcases hd with rfl | rfl
      · exact this.1 rfl
      · exact this.2 rfl
    · rw [← e]
      unfold Char.toLower
      unfold Char.isUpper at hu
      simp only [Bool.and_eq_true, decide_eq_true_eq] at hu
      rw [dif_neg hu]
  constructor <;> intro hm <;> obtain ⟨c, hc, e⟩ := List.mem_map.mp hm
  · exact h.1 (key c _ (Or.inl rfl) e ▸ hc)
  · exact h.2 (key c _ (Or.inr rfl) e ▸ hc)

/-- **C106.** An action counts as a nop exactly when its first word is `nop` or it is `no-op` or `noop`, in upper or lower case. -/
theorem C106_nop {b : Text} (hb : '(' ∉ b ∧ ')' ∉ b) : isNop ('(' :: b ++ [')']) = true ↔ NopBody b := by
  have hs : strip ('(' :: b ++ [')']) = '(' :: b ++ [')'] := by
    have := strip_eq (w := []) (w' := []) (t := b) (c := '(') (d := ')') (by simp) (by simp) (by decide) (by decide)
    simpa using this
  have hb' := lower_paren hb
  have hw := words_wf (lower b)
  have hp : ∀ w ∈ words (lower b), '(' ∉ w ∧ ')' ∉ w := by
    intro w hw'
    constructor <;> intro hc <;> rcases mem_words w hw' _ hc with h | h
    · cases h
    · exact hb'.1 h
    · cases h
    · exact hb'.2 h
  unfold isNop NopBody
  dsimp only
  rw [hs, if_pos (by
    rw [Bool.and_eq_true, List.isPrefixOf_iff_prefix, List.isSuffixOf_iff_suffix]
    exact ⟨⟨b ++ [')'], rfl⟩, ⟨'(' :: b, rfl⟩⟩)]
  rw [List.cons_append, List.drop_succ_cons, List.drop_zero, List.dropLast_concat, lower_join, ← words_lower]
  rw [Bool.or_eq_true, List.contains_iff_mem, List.isPrefixOf_iff_prefix, join_prefix hw]
  simp only [List.mem_cons, List.not_mem_nil, or_false]
  have word : ∀ x : Text, x ≠ [] → ' ' ∉ x → (joinWords (words (lower b)) = x ↔ words (lower b) = [x]) :=
    fun x h0 hx => ⟨join_eq_word h0 hx, fun h => by rw [h]; rfl⟩
  rw [word _ (by decide) (by decide), word _ (by decide) (by decide), word _ (by decide) (by decide), word _ (by decide) (by decide),
    word _ (by decide) (by decide)]
  have no1 : words (lower b) ≠ ["nop)".toList] := fun h => (hp "nop)".toList (by rw [h]; simp)).2 (by decide)
  have no2 : words (lower b) ≠ ["(nop".toList] := fun h => (hp "(nop".toList (by rw [h]; simp)).1 (by decide)
  constructor
  · rintro ((h | h | h | h | h) | ⟨v, vs, h⟩)
    · exact Or.inl ⟨[], h⟩
    · exact absurd h no1
    · exact absurd h no2
    · exact Or.inr (Or.inl h)
    · exact Or.inr (Or.inr h)
    · exact Or.inl ⟨v :: vs, h⟩
  · rintro (⟨ws, h⟩ | h | h)
    · cases ws with
      | nil => exact Or.inl (Or.inl h)
      | cons v vs => exact Or.inr ⟨v, vs, h⟩
    · exact Or.inl (Or.inr (Or.inr (Or.inr (Or.inl h))))
    · exact Or.inl (Or.inr (Or.inr (Or.inr (Or.inr h))))

/-- A line of a trajectory: with a joint action, or any other. -/
inductive Line where
  | joint (l : JointLine)
  | other (t : Text)

def Line.text : Line → Text
  | .joint l => l.text
  | .other t => t

def Line.WF : Line → Prop
  | .joint l => l.WF
  | .other t => ¬ "(operators:".toList <+: strip t

/-- A line with a joint action. -/
def IsJoint : Line → Prop
  | .joint _ => True
  | .other _ => False

/-- Exactly one agent acts. -/
def Single : Line → Prop
  | .joint l => ∃ p a q, l.acts = p ++ a :: q ∧ ¬ NopBody a.body ∧ ∀ x ∈ p ++ q, NopBody x.body
  | .other _ => False

theorem sum_one {α : Type} (f : α → Bool) (l : List α) :
    (l.map fun t => if f t then 0 else 1).sum = 1 ↔ ∃ p a q, l = p ++ a :: q ∧ f a = false ∧ ∀ x ∈ p ++ q, f x = true := by
  have zero : ∀ l : List α, (l.map fun t => if f t then 0 else 1).sum = 0 ↔ ∀ x ∈ l, f x = true := by
    intro l
    induction l with
    | nil => simp
    | cons x l ih =>
      rw [List.map_cons, List.sum_cons]
      cases h : f x with
      | true => simp [ih, h]
      | false => simp [h]
  induction l with
  | nil => simp
  | cons x l ih =>
    rw [List.map_cons, List.sum_cons]
    cases h : f x with
    | true =>
      rw [if_pos rfl, Nat.zero_add]
      refine Iff.trans ih ?_
      constructor
      · rintro ⟨p, a, q, rfl, ha, hx⟩
        refine ⟨x :: p, a, q, rfl, ha, ?_⟩
        intro y hy
        rcases List.mem_cons.mp hy with rfl | hy
        · exact h
        · exact hx y hy
      · rintro ⟨p, a, q, e, ha, hx⟩
        cases p with
        | nil =>
          have := (List.cons.inj e).1
          subst this
          rw [h] at ha; cases ha
        | cons y p =>
          refine ⟨p, a, q, (List.cons.inj e).2, ha, fun z hz => hx z (by simp at hz ⊢; tauto)⟩
    | false =>
      rw [if_neg (by simp)]
      have : 1 + (l.map fun t => if f t then 0 else 1).sum = 1 ↔ (l.map fun t => if f t then 0 else 1).sum = 0 := by omega
      rw [this, zero]
      constructor
      · intro k; exact ⟨[], x, l, rfl, h, k⟩
      · rintro ⟨p, a, q, e, ha, hx⟩
        cases p with
        | nil => rw [(List.cons.inj e).2]; exact hx
        | cons y p =>
          have h1 := (List.cons.inj e).1
          have := hx y (by simp)
          rw [← h1, h] at this; cases this

theorem count_line {l : Line} (h : l.WF) (acc : Nat × Nat) :
    ((count acc l.text).1 = acc.1 + 1 ↔ IsJoint l) ∧ ((count acc l.text).1 = acc.1 ↔ ¬ IsJoint l) ∧
    ((count acc l.text).2 = acc.2 + 1 ↔ Single l) ∧ ((count acc l.text).2 = acc.2 ↔ ¬ Single l) := by
  cases l with
  | other t =>
    have h : ¬ "(operators:".toList <+: strip t := h
    unfold count
    dsimp only [Line.text]
    rw [if_neg (by rw [List.isPrefixOf_iff_prefix]; exact h)]
    simp [IsJoint, Single]
  | joint l =>
    have hwf : l.WF := h
    obtain ⟨h1, h2⟩ := C106_actions hwf
    have hS : Single (.joint l) ↔ ((l.acts.map fun a => '(' :: a.body ++ [')']).map fun t => if isNop t then 0 else 1).sum = 1 := by
      rw [List.map_map]
      have := sum_one (fun a : Act => isNop ('(' :: a.body ++ [')'])) l.acts
      simp only [Function.comp_def]
      rw [this]
      unfold Single
      dsimp only
      constructor
      · rintro ⟨p, a, q, e, ha, hx⟩
        refine ⟨p, a, q, e, ?_, fun x hm => (C106_nop (hwf.body x (by rw [e]; simp at hm ⊢; tauto))).mpr (hx x hm)⟩
        rw [Bool.eq_false_iff]
        exact fun k => ha ((C106_nop (hwf.body a (by rw [e]; simp))).mp k)
      · rintro ⟨p, a, q, e, ha, hx⟩
        refine ⟨p, a, q, e, ?_, fun x hm => (C106_nop (hwf.body x (by rw [e]; simp at hm ⊢; tauto))).mp (hx x hm)⟩
        intro k
        rw [(C106_nop (hwf.body a (by rw [e]; simp))).mpr k] at ha
        cases ha
    unfold count
    dsimp only [Line.text]
    rw [if_pos h1]
    simp only [h2]
    by_cases he : (l.acts.map fun a => '(' :: a.body ++ [')']) = []
    · have : ¬ Single (.joint l) := by rw [hS, he]; simp
      rw [if_pos he]
      simp [IsJoint, this]
    · rw [if_neg he]
      by_cases hs : Single (.joint l)
      · rw [if_pos (hS.mp hs)]; simp [IsJoint, hs]
      · rw [if_neg (fun k => hs (hS.mpr k))]; simp [IsJoint, hs]

open Classical in
/-- **C106.** Over a file the tool counts the lines with a joint action and among them those in which exactly one agent acts. -/
theorem C106_counts (lines : List Line) (h : ∀ l ∈ lines, l.WF) :
    analyze (lines.map Line.text) = (lines.countP fun l => decide (IsJoint l), lines.countP fun l => decide (Single l)) := by
  unfold analyze
  have key : ∀ (lines : List Line) (acc : Nat × Nat), (∀ l ∈ lines, l.WF) → (lines.map Line.text).foldl count acc =
      (acc.1 + lines.countP fun l => decide (IsJoint l), acc.2 + lines.countP fun l => decide (Single l)) := by
    intro lines
    induction lines with
    | nil => intro acc _; rfl
    | cons l lines ih =>
      intro acc h
      rw [List.map_cons, List.foldl_cons, ih _ fun x hx => h x (List.mem_cons_of_mem _ hx)]
      obtain ⟨h1, h2, h3, h4⟩ := count_line (h l (by simp)) acc
      rw [List.countP_cons, List.countP_cons]
      by_cases hj : IsJoint l <;> by_cases hs : Single l <;> simp only [hj, hs, decide_true, decide_false, if_true, Bool.false_eq_true, if_false] <;>
        simp only [hj, hs, iff_true, iff_false, not_true, not_false_eq_true] at h1 h2 h3 h4 <;>
        ext <;> simp only [] <;> omega
  have := key lines (0, 0) h
  simpa using this

open Classical in
/-- **C106.** The printed rate over several files is the number of joint actions in which exactly one agent acts over the number of joint
actions, over all the files together; without a joint action it is 0, and it never leaves [0, 1]. -/
theorem C106_rate (files : List (List Line)) (h : ∀ f ∈ files, ∀ l ∈ f, l.WF) :
    rate (files.map fun f => f.map Line.text) =
      (if (files.flatten.countP fun l => decide (IsJoint l)) = 0 then 0
       else ((files.flatten.countP fun l => decide (Single l) : Nat) : Rat) / ((files.flatten.countP fun l => decide (IsJoint l) : Nat) : Rat)) ∧
    (files.flatten.countP fun l => decide (Single l)) ≤ files.flatten.countP fun l => decide (IsJoint l) := by
  constructor
  · unfold rate
    dsimp only
    have h1 : ((files.map fun f => f.map Line.text).map fun f => (analyze f).1).sum = files.flatten.countP fun l => decide (IsJoint l) := by
      rw [List.countP_flatten, List.map_map]
      congr 1
      apply List.map_congr_left
      intro f hf
      simp only [Function.comp_def]
      rw [C106_counts f (h f hf)]
    have h2 : ((files.map fun f => f.map Line.text).map fun f => (analyze f).2).sum = files.flatten.countP fun l => decide (Single l) := by
      rw [List.countP_flatten, List.map_map]
      congr 1
      apply List.map_congr_left
      intro f hf
      simp only [Function.comp_def]
      rw [C106_counts f (h f hf)]
    rw [h1, h2]
  · apply List.countP_mono_left
    intro l _ hs
    cases l with
    | joint l => exact decide_eq_true trivial
    | other t => exact absurd (of_decide_eq_true hs) id

/-! ### A concrete case -/
namespace Case

def l1 : JointLine := ⟨"".toList, [⟨" ".toList, "Move a b".toList⟩, ⟨" ".toList, "nop ".toList⟩], " )\n".toList⟩
def l2 : JointLine := ⟨"\t".toList, [⟨"".toList, "NOP x".toList⟩, ⟨" ".toList, "noop".toList⟩], ")".toList⟩
/-- An action whose name begins with `nop` acts. -/
def l3 : JointLine := ⟨"".toList, [⟨" ".toList, "nopx".toList⟩, ⟨" ".toList, "load a".toList⟩], ")".toList⟩

example : l1.WF :=
  ⟨by decide, by decide, by decide, ⟨" ".toList, "\n".toList, by decide, by decide, by decide⟩⟩
example : l2.WF :=
  ⟨by decide, by decide, by decide, ⟨[], [], by decide, by decide, by decide⟩⟩
example : l3.WF :=
  ⟨by decide, by decide, by decide, ⟨[], [], by decide, by decide, by decide⟩⟩
example : (Line.other "(:state (at a b))".toList).WF := by
  show ¬ _
  decide +kernel

example : analyze [l1.text, "(:state (at a b))".toList, l2.text, l3.text] = (3, 1) := by decide +kernel
example : NopBody "NOP x".toList ∧ ¬ NopBody "nopx".toList := by
  constructor
  · exact Or.inl ⟨["x".toList], by decide⟩
  · rw [← C106_nop (by decide)]; decide +kernel

end Case

end Joint
end Props
