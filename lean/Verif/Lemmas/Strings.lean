import Verif.Spec.Text
import Verif.Lemmas.Logic

/-! The string primitives on printed literals. -/
namespace Model
open Spec

/-- The text of the positive literal. -/
def baseText (name : Str) (args : List Str) : Str := '(' :: (name ++ ' ' :: (joinSp args ++ [')']))

theorem showLit_pos (n : Str) (a : List Str) : showLit n a true = baseText n a := rfl
theorem showLit_neg (n : Str) (a : List Str) :
    showLit n a false = '(' :: 'n' :: 'o' :: 't' :: ' ' :: (baseText n a ++ [')']) := rfl

theorem startsWith_neg (n : Str) (a : List Str) : startsWith "(not".toList (showLit n a false) = true := by
  rw [showLit_neg]; simp [startsWith, List.isPrefixOf]

theorem startsWith_pos {n : Str} (h : startsWith "not".toList n = false) (a : List Str) :
    startsWith "(not".toList (showLit n a true) = false := by
  rw [showLit_pos]
  simp only [startsWith, baseText] at *
  match n with
  | [] => simp [List.isPrefixOf]
  | [c] => simp [List.isPrefixOf]
  | [c, d] => simp [List.isPrefixOf]
  | c :: d :: e :: n => simpa [List.isPrefixOf] using h

theorem flipStr_pos {n : Str} (h : startsWith "not".toList n = false) (a : List Str) :
    flipStr (showLit n a true) = showLit n a false := by
  unfold flipStr
  rw [startsWith_pos h, showLit_neg, showLit_pos]
  simp

theorem flipStr_neg (n : Str) (a : List Str) : flipStr (showLit n a false) = showLit n a true := by
  unfold flipStr
  rw [startsWith_neg, showLit_neg, showLit_pos]
  simp

theorem flipStr_show {n : Str} (h : startsWith "not".toList n = false) (a : List Str) (p : Bool) :
    flipStr (showLit n a p) = showLit n a (!p) := by
  cases p
  · exact flipStr_neg n a
  · exact flipStr_pos h a

theorem takeWhile_append_stop {l : Str} {p : Char → Bool} {c : Char} {r : Str} (hl : ∀ x ∈ l, p x = true)
    (hc : p c = false) : (l ++ c :: r).takeWhile p = l := by
  induction l with
  | nil => simp [hc]
  | cons x l ih => simp [hl x (by simp), ih (fun x hx => hl x (by simp [hx]))]

theorem dropWhile_append {l : Str} {p : Char → Bool} {r : Str} (hl : ∀ x ∈ l, p x = true) :
    (l ++ r).dropWhile p = r.dropWhile p := by
  induction l with
  | nil => rfl
  | cons x l ih => simp [hl x (by simp), ih (fun x hx => hl x (by simp [hx]))]

theorem mem_joinSp {args : List Str} {c : Char} (h : c ∈ joinSp args) : c = ' ' ∨ ∃ a ∈ args, c ∈ a := by
  induction args with
  | nil => simp [joinSp] at h
  | cons a as ih =>
    cases as with
    | nil => exact Or.inr ⟨a, by simp, h⟩
    | cons b bs =>
      simp only [joinSp, List.mem_append, List.mem_cons] at h
      rcases h with h | h | h
      · exact Or.inr ⟨a, by simp, h⟩
      · exact Or.inl h
      · rcases ih h with h | ⟨x, hx, hc⟩
        · exact Or.inl h
        · exact Or.inr ⟨x, by simp [hx], hc⟩

theorem isWord_ne {c : Char} (h : isWord c = true) : c ≠ ')' ∧ c ≠ '(' ∧ c ≠ ' ' := by
  refine ⟨?_, ?_, ?_⟩ <;> (rintro rfl; revert h; decide)

theorem goodName_classA {n : Str} (h : GoodName n) : ∀ c ∈ n, classA c = true := by
  intro c hc
  rcases h.2.1 c hc with h | rfl
  · simp [classA, h]
  · decide

theorem goodName_ne {n : Str} (h : GoodName n) : ∀ c ∈ n, c ≠ ')' ∧ c ≠ '(' ∧ c ≠ ' ' := by
  intro c hc
  rcases h.2.1 c hc with h | rfl
  · exact isWord_ne h
  · decide

theorem plainArg_ne {a : Str} (h : PlainArg a) : ∀ c ∈ a, c ≠ ')' ∧ c ≠ '(' ∧ c ≠ ' ' := by
  intro c hc
  rcases h.2 c hc with h | rfl
  · exact isWord_ne h
  · decide

theorem dropWhile_all {l : Str} {p q : Char → Bool} (h : ∀ x ∈ l, q x = true) :
    (l.dropWhile p).all q = true := by
  rw [List.all_eq_true]
  intro x hx
  exact h x ((List.dropWhile_sublist p).subset hx)

/-- The regular expression matches a printed positive literal, whatever follows. -/
theorem matchHere_base {n : Str} {args : List Str} (hn : GoodName n) (ha : ∀ a ∈ args, PlainArg a) (r : Str) :
    matchHere (baseText n args ++ r) = some (baseText n args) := by
  have hbody : ∀ c ∈ n ++ ' ' :: joinSp args, (c != ')') = true := by
    intro c hc
    simp only [List.mem_append, List.mem_cons] at hc
    rw [bne_iff_ne]
    rcases hc with hc | rfl | hc
    · exact (goodName_ne hn c hc).1
    · decide
    · rcases mem_joinSp hc with rfl | ⟨a, ham, hca⟩
      · decide
      · exact (plainArg_ne (ha a ham) c hca).1
  have e : baseText n args ++ r = '(' :: ((n ++ ' ' :: joinSp args) ++ ')' :: r) := by
    simp [baseText]
  rw [e, matchHere, takeWhile_append_stop hbody (by decide)]
  have hB : ((n ++ ' ' :: joinSp args).dropWhile classA).all classB = true := by
    rw [dropWhile_append (goodName_classA hn)]
    apply dropWhile_all
    intro c hc
    rcases List.mem_cons.mp hc with rfl | hc
    · decide
    · rcases mem_joinSp hc with rfl | ⟨a, ham, hca⟩
      · decide
      · rcases (ha a ham).2 c hca with h | rfl
        · simp [classB, h]
        · decide
  have hcont : ((n ++ ' ' :: joinSp args) ++ ')' :: r).contains ')' = true := by simp
  simp only [hcont, hB, Bool.and_self, if_true]
  simp [baseText]

theorem matchHere_not (n : Str) (args : List Str) (hn : GoodName n) (ha : ∀ a ∈ args, PlainArg a) :
    matchHere (showLit n args false) = none := by
  rw [showLit_neg]
  have hbody : ∀ c ∈ "not (".toList ++ (n ++ ' ' :: joinSp args), (c != ')') = true := by
    intro c hc
    rw [bne_iff_ne]
    rcases List.mem_append.mp hc with hc | hc
    · revert hc; simp; rintro (rfl | rfl | rfl | rfl | rfl) <;> decide
    simp only [List.mem_append, List.mem_cons] at hc
    rcases hc with hc | rfl | hc
    · exact (goodName_ne hn c hc).1
    · decide
    · rcases mem_joinSp hc with rfl | ⟨a, ham, hca⟩
      · decide
      · exact (plainArg_ne (ha a ham) c hca).1
  have e : ('n' :: 'o' :: 't' :: ' ' :: (baseText n args ++ [')'])) =
      ("not (".toList ++ (n ++ ' ' :: joinSp args)) ++ ')' :: [')'] := by simp [baseText]
  rw [e, matchHere]
  have hb : (("not (".toList ++ (n ++ ' ' :: joinSp args)).dropWhile classA).all classB = false := by
    have h1 : classA 'n' = true := by decide
    have h2 : classA 'o' = true := by decide
    have h3 : classA 't' = true := by decide
    have h4 : classA ' ' = false := by decide
    have h5 : classB '(' = false := by decide
    simp [List.dropWhile, h1, h2, h3, h4, h5]
  rw [takeWhile_append_stop hbody (by decide)]
  simp only [hb, Bool.and_false, Bool.false_eq_true, if_false]

theorem regexSearch_show {n : Str} {args : List Str} (hn : GoodName n) (ha : ∀ a ∈ args, PlainArg a)
    (p : Bool) : regexSearch (showLit n args p) = .ok (baseText n args) := by
  cases p with
  | true =>
    have := matchHere_base hn ha []
    rw [List.append_nil] at this
    rw [showLit_pos]
    unfold regexSearch
    rw [show baseText n args = '(' :: (n ++ ' ' :: (joinSp args ++ [')'])) from rfl] at *
    simp only [this]
  | false =>
    have h0 := matchHere_not n args hn ha
    rw [showLit_neg] at *
    have h1 : ∀ s, matchHere ('n' :: s) = none := fun s => rfl
    have h2 : ∀ s, matchHere ('o' :: s) = none := fun s => rfl
    have h3 : ∀ s, matchHere ('t' :: s) = none := fun s => rfl
    have h4 : ∀ s, matchHere (' ' :: s) = none := fun s => rfl
    have h5 := matchHere_base hn ha [')']
    have h6 : regexSearch (baseText n args ++ [')']) = .ok (baseText n args) := by
      have : baseText n args ++ [')'] = '(' :: ((n ++ ' ' :: (joinSp args ++ [')'])) ++ [')']) := rfl
      rw [this] at h5 ⊢
      unfold regexSearch
      rw [h5]
    rw [regexSearch, h0]; dsimp only
    rw [regexSearch, h1]; dsimp only
    rw [regexSearch, h2]; dsimp only
    rw [regexSearch, h3]; dsimp only
    rw [regexSearch, h4]; dsimp only
    exact h6

/-- On printed literals the string primitives behave like literals. -/
theorem strOps_ok : OpsOK strOps Printed where
  total := by
    rintro _ ⟨n, a, p, hn, ha, rfl⟩
    exact ⟨_, regexSearch_show hn ha p⟩
  compl := by
    rintro _ _ ⟨n, a, p, hn, ha, rfl⟩ ⟨m, b, q, hm, hb, rfl⟩
    simp only [strOps, regexSearch_show hn ha p, regexSearch_show hm hb q, Except.ok.injEq,
      flipStr_show hn.2.2]
    have s : ∀ {n : Str} (a : List Str) (p : Bool), GoodName n → startsWith "(not".toList (showLit n a p) = !p := by
      intro n a p hn
      cases p
      · exact startsWith_neg n a
      · exact startsWith_pos hn.2.2 a
    constructor
    · rintro ⟨h1, h2⟩
      rw [s a p hn, s b q hm] at h2
      have : q = !p := by revert h2; cases p <;> cases q <;> simp
      subst this
      cases p
      · simp only [Bool.not_false, showLit_pos]; exact h1.symm
      · simp only [Bool.not_true, showLit_neg, h1]
    · intro h
      have hq : q = !p := by
        have := congrArg (startsWith "(not".toList) h
        rw [s b q hm, s a (!p) hn] at this
        simpa using this
      subst hq
      refine ⟨?_, by rw [s a p hn, s b (!p) hm]; cases p <;> simp⟩
      cases p
      · simp only [Bool.not_false, showLit_pos] at h; exact h.symm
      · simp only [Bool.not_true, showLit_neg, List.cons.injEq, true_and] at h
        exact (List.append_cancel_right h).symm
  flipW := by
    rintro _ ⟨n, a, p, hn, ha, rfl⟩
    exact ⟨n, a, !p, hn, ha, flipStr_show hn.2.2 a p⟩
  flip_flip := by
    rintro _ ⟨n, a, p, hn, ha, rfl⟩
    simp only [strOps, flipStr_show hn.2.2, Bool.not_not]

/-! ### Splitting and parsing -/

theorem splitSp_token {a : Str} (h : ∀ c ∈ a, c ≠ ' ') : splitSp a = [a] := by
  induction a with
  | nil => rfl
  | cons c a ih =>
    have hc : (c == ' ') = false := by simpa using h c (by simp)
    simp only [splitSp, hc, Bool.false_eq_true, if_false, ih (fun c hc => h c (by simp [hc]))]

theorem splitSp_append {a : Str} (h : ∀ c ∈ a, c ≠ ' ') (r : Str) : splitSp (a ++ ' ' :: r) = a :: splitSp r := by
  induction a with
  | nil => simp [splitSp]
  | cons c a ih =>
    have hc : (c == ' ') = false := by simpa using h c (by simp)
    simp only [List.cons_append, splitSp, hc, Bool.false_eq_true, if_false, ih (fun c hc => h c (by simp [hc]))]

theorem splitSp_join {args : List Str} (h : ∀ a ∈ args, Token a) :
    (splitSp (joinSp args)).filter (· ≠ []) = args := by
  induction args with
  | nil => simp [joinSp, splitSp]
  | cons a as ih =>
    have ha := h a (by simp)
    have hsp : ∀ c ∈ a, c ≠ ' ' := fun c hc => (ha.2 c hc).1
    cases as with
    | nil => simp [joinSp, splitSp_token hsp, ha.1]
    | cons b bs =>
      simp only [joinSp]
      rw [splitSp_append hsp, List.filter_cons_of_pos (by simp [ha.1])]
      rw [ih (fun a h' => h a (by simp [h']))]

theorem parse_data {n : Str} {args : List Str} (hn : Token n) (ha : ∀ a ∈ args, Token a) :
    (splitSp (n ++ ' ' :: joinSp args)).filter (· ≠ []) = n :: args := by
  rw [splitSp_append (fun c hc => (hn.2 c hc).1), List.filter_cons_of_pos (by simp [hn.1]), splitSp_join ha]

theorem body_ne {n : Str} {args : List Str} (hn : Token n) (ha : ∀ a ∈ args, Token a) :
    ∀ c ∈ n ++ ' ' :: joinSp args, c ≠ '(' ∧ c ≠ ')' := by
  intro c hc
  simp only [List.mem_append, List.mem_cons] at hc
  rcases hc with hc | rfl | hc
  · exact (hn.2 c hc).2
  · decide
  · rcases mem_joinSp hc with rfl | ⟨a, ham, hca⟩
    · decide
    · exact ((ha a ham).2 c hca).2

theorem removeAll_none {p : Char} {ps s : Str} (h : ∀ c ∈ s, c ≠ p) : removeAll (p :: ps) s = s := by
  induction s with
  | nil => simp [removeAll]
  | cons c s ih =>
    rw [removeAll]
    have hc : (p == c) = false := by
      rw [beq_eq_false_iff_ne]; exact fun e => h c (by simp) e.symm
    simp only [List.isPrefixOf, hc, Bool.false_and, Bool.false_eq_true, and_false, if_false]
    rw [ih (fun c hc => h c (by simp [hc]))]

theorem stripClose_body {s : Str} (h : ∀ c ∈ s, c ≠ ')') (hs : s ≠ []) : stripClose (s ++ [')', ')']) = s := by
  unfold stripClose
  have h1 : (s ++ [')', ')']).dropWhile (· == ')') = s ++ [')', ')'] := by
    cases s with
    | nil => exact absurd rfl hs
    | cons c s =>
      have : (c == ')') = false := by simpa using h c (by simp)
      simp [List.dropWhile, this]
  rw [h1]
  have h2 : s.reverse.dropWhile (· == ')') = s.reverse := by
    cases hr : s.reverse with
    | nil => rfl
    | cons c r =>
      have hc : c ∈ s := by rw [← List.mem_reverse, hr]; simp
      have : (c == ')') = false := by simpa using h c hc
      simp [List.dropWhile, this]
  simp only [List.reverse_append, List.reverse_cons, List.reverse_nil, List.nil_append, List.cons_append]
  simp [List.dropWhile, h2]

/-- The token list that the parser extracts from a printed literal. -/
theorem parse_tokens {n : Str} {args : List Str} (hn : Token n) (hnot : n ≠ "not".toList)
    (ha : ∀ a ∈ args, Token a) (p : Bool) (table : List (Str × PType)) :
    parseLit table (showLit n args p) = (do
      let bound ← args.mapM (bindArg table)
      .ok ⟨n, Py.dictOf bound, p⟩) := by
  have hbody := body_ne hn ha
  have hne : n ++ ' ' :: joinSp args ≠ [] := by simp
  cases p with
  | true =>
    have hst : startsWith "(not ".toList (showLit n args true) = false := by
      rw [showLit_pos]
      simp only [startsWith, baseText]
      have htok : ∀ c ∈ n, c ≠ ' ' := fun c hc => (hn.2 c hc).1
      match n with
      | [] => exact absurd rfl hn.1
      | [c] => simp [List.isPrefixOf]
      | [c, d] => simp [List.isPrefixOf]
      | [c, d, e] => revert hnot; simp [List.isPrefixOf]; grind
      | c :: d :: e :: f :: n =>
        have : f ≠ ' ' := htok f (by simp)
        simp [List.isPrefixOf]; grind
    unfold parseLit
    have hdata : ((showLit n args true).filter (· != '(')).filter (· != ')') = n ++ ' ' :: joinSp args := by
      rw [showLit_pos, show baseText n args = ['('] ++ ((n ++ ' ' :: joinSp args) ++ [')']) by simp [baseText]]
      rw [List.filter_append, List.filter_append, List.filter_append, List.filter_append]
      have e1 : (n ++ ' ' :: joinSp args).filter (· != '(') = n ++ ' ' :: joinSp args :=
        List.filter_eq_self.mpr fun c hc => by simpa using (hbody c hc).1
      have e2 : (n ++ ' ' :: joinSp args).filter (· != ')') = n ++ ' ' :: joinSp args :=
        List.filter_eq_self.mpr fun c hc => by simpa using (hbody c hc).2
      rw [e1, e2]
      have e3 : (['('].filter (· != '(')) = [] := by decide
      have e4 : (([')'].filter (· != '(')).filter (· != ')')) = [] := by decide
      rw [e3, e4]; simp
    simp only [hst, Bool.not_false, if_true, hdata, parse_data hn ha]
  | false =>
    have hst : startsWith "(not ".toList (showLit n args false) = true := by
      rw [showLit_neg]; simp [startsWith, List.isPrefixOf]
    unfold parseLit
    have hdata : stripClose (removeAll "(not (".toList (showLit n args false)) = n ++ ' ' :: joinSp args := by
      have e : showLit n args false = '(' :: ("not (".toList ++ ((n ++ ' ' :: joinSp args) ++ [')', ')'])) := by
        rw [showLit_neg]; simp [baseText]
      rw [e, removeAll]
      have hp : ("(not (".toList ≠ []) ∧
          "(not (".toList.isPrefixOf ('(' :: ("not (".toList ++ ((n ++ ' ' :: joinSp args) ++ [')', ')']))) = true := by
        simp [List.isPrefixOf]
      rw [if_pos hp]
      have hd : ('(' :: ("not (".toList ++ ((n ++ ' ' :: joinSp args) ++ [')', ')']))).drop "(not (".toList.length
          = (n ++ ' ' :: joinSp args) ++ [')', ')'] := by simp
      rw [hd, show "(not (".toList = '(' :: "not (".toList by decide, removeAll_none]
      · exact stripClose_body (fun c hc => (hbody c hc).2) hne
      · intro c hc
        rcases List.mem_append.mp hc with hc | hc
        · exact (hbody c hc).1
        · revert hc; simp; rintro rfl; decide
    simp only [hst, Bool.not_true, Bool.false_eq_true, if_false, hdata, parse_data hn ha]

theorem mapM_lookup_ok {table : List (Str × PType)} {ty : Str → PType} {args : List Str}
    (h : ∀ a ∈ args, table.lookup a = some (ty a)) :
    (args.mapM (bindArg table)) = .ok (args.map fun a => (a, ty a)) := by
  induction args with
  | nil => rfl
  | cons a as ih =>
    rw [List.mapM_cons, bindArg, h a (by simp), ih (fun b hb => h b (by simp [hb]))]
    rfl

theorem mapM_lookup_err {table : List (Str × PType)} {args : List Str}
    (h : ∃ a ∈ args, table.lookup a = none) :
    (args.mapM (bindArg table)) = .error .keyError := by
  induction args with
  | nil => simp at h
  | cons a as ih =>
    rw [List.mapM_cons, bindArg]
    cases hl : table.lookup a with
    | none => rfl
    | some t =>
      obtain ⟨b, hb, hb'⟩ := h
      rcases List.mem_cons.mp hb with rfl | hb
      · rw [hl] at hb'; simp at hb'
      · rw [ih ⟨b, hb, hb'⟩]; rfl

end Model
