import Verif.Model.Macro
import Verif.Lemmas.Graph
import Verif.Spec.Strips

namespace Model
open Spec

/-! ### Tokens -/

/-- A name that the regular expression finds as one token. -/
def Token (s : String) : Prop := s.toList ≠ [] ∧ ∀ c ∈ s.toList, (c.isWhitespace || c == '(' || c == ')') = false

instance (s : String) : Decidable (Token s) := by unfold Token; infer_instance

theorem tokenize_run (w : List Char) (hw : ∀ c ∈ w, (c.isWhitespace || c == '(' || c == ')') = false) (cur rest : List Char) :
    tokenize cur (w ++ rest) = tokenize (cur ++ w) rest := by
  induction w generalizing cur with
  | nil => simp
  | cons c w ih =>
    rw [List.cons_append, tokenize, hw c List.mem_cons_self]
    simp only [Bool.false_eq_true, if_false]
    rw [ih (fun c hc => hw c (List.mem_cons_of_mem _ hc))]
    simp

theorem tokenize_args (args : List String) (hargs : ∀ x ∈ args, Token x) (cur : List Char) (hc : cur ≠ []) :
    tokenize cur (args.flatMap (fun x => ' ' :: x.toList) ++ [')']) = cur :: args.map String.toList := by
  induction args generalizing cur with
  | nil => simp [tokenize, hc]
  | cons x args ih =>
    rw [List.flatMap_cons, List.cons_append, List.cons_append, List.append_assoc, tokenize]
    simp only [show ((' ' : Char).isWhitespace || (' ' : Char) == '(' || (' ' : Char) == ')') = true by decide, if_true, hc, if_false]
    obtain ⟨h1, h2⟩ := hargs x List.mem_cons_self
    rw [tokenize_run _ h2, List.nil_append, ih (fun y hy => hargs y (List.mem_cons_of_mem _ hy)) _ h1]
    rfl

theorem tokenize_showCall {name : String} {args : List String} (hn : Token name) (ha : ∀ x ∈ args, Token x) :
    (tokenize [] (showCall name args).toList).map String.ofList = name :: args := by
  unfold showCall
  rw [String.toList_ofList, tokenize]
  simp only [show (('(' : Char).isWhitespace || ('(' : Char) == '(' || ('(' : Char) == ')') = true by decide, if_true]
  rw [tokenize_run _ hn.2, List.nil_append, tokenize_args _ ha _ hn.1, List.map_cons, List.map_map, String.ofList_toList]
  congr 1
  conv_rhs => rw [← List.map_id args]
  exact List.map_congr_left fun x _ => String.ofList_toList

/-! ### Bindings -/

/-- Actions with different names, each with different parameters. -/
structure GoodActs (acts : List MicroAct) : Prop where
  names : (acts.map Prod.fst).Nodup
  params : ∀ a ∈ acts, (Sig.names a.2).Nodup

/-- The keys of the binding, in order. -/
def microKeys (acts : List MicroAct) : List (String × String) := acts.flatMap fun a => (Sig.names a.2).map (a.1, ·)

theorem microKeys_nodup {acts : List MicroAct} (h : GoodActs acts) : (microKeys acts).Nodup := by
  unfold microKeys
  rw [List.nodup_flatMap]
  refine ⟨fun a ha => (h.params a ha).map fun x y e => (Prod.mk.inj e).2, ?_⟩
  have hn := h.names
  rw [List.Nodup, List.pairwise_map] at hn
  refine hn.imp fun {a b} hab => ?_
  intro p hp hp'
  obtain ⟨x, _, rfl⟩ := List.mem_map.mp hp
  obtain ⟨y, _, e⟩ := List.mem_map.mp hp'
  exact hab (Prod.mk.inj e).1.symm

theorem mem_microKeys {acts : List MicroAct} {p : String × String} :
    p ∈ microKeys acts ↔ ∃ a ∈ acts, a.1 = p.1 ∧ p.2 ∈ Sig.names a.2 := by
  unfold microKeys
  simp only [List.mem_flatMap, List.mem_map]
  constructor
  · rintro ⟨a, ha, x, hx, rfl⟩; exact ⟨a, ha, rfl, hx⟩
  · rintro ⟨a, ha, h1, h2⟩; exact ⟨a, ha, p.2, h2, by rw [h1]⟩

theorem initialBinding_keys {acts : List MicroAct} (h : GoodActs acts) : (initialBinding acts).map Prod.fst = microKeys acts := by
  unfold initialBinding
  have e : (acts.flatMap fun a => a.2.map fun p => ((a.1, p.1), p.1 ++ "_" ++ toString ((acts.map Prod.fst).idxOf a.1))).map Prod.fst
      = microKeys acts := by
    unfold microKeys
    rw [List.map_flatMap]
    congr 1; funext a
    simp [Sig.names, List.map_map, Function.comp_def]
  rw [Py.dictOf_of_nodup (by rw [e]; exact microKeys_nodup h), e]

/-- A group overwrites the values of its elements. -/
theorem setGroup_spec (g : List (String × String)) (v : String) (m : Binding) :
    (∀ k, (g.foldl (fun m p => Py.dictSet m p v) m).lookup k = if k ∈ g then some v else m.lookup k) ∧
    ((∀ p ∈ g, p ∈ m.map Prod.fst) → (g.foldl (fun m p => Py.dictSet m p v) m).map Prod.fst = m.map Prod.fst) := by
  induction g generalizing m with
  | nil => simp
  | cons p g ih =>
    obtain ⟨i1, i2⟩ := ih (Py.dictSet m p v)
    rw [List.foldl_cons]
    refine ⟨fun k => ?_, fun h => ?_⟩
    · rw [i1, Py.lookup_dictSet]
      by_cases h1 : k ∈ g
      · simp [h1]
      · by_cases h2 : k = p
        · simp [h2]
        · simp [h1, h2]
    · have hp : p ∈ m.map Prod.fst := h p List.mem_cons_self
      have e : (Py.dictSet m p v).map Prod.fst = m.map Prod.fst := by rw [Py.keys_dictSet, if_pos hp]
      rw [i2 (by rw [e]; exact fun q hq => h q (List.mem_cons_of_mem _ hq)), e]

theorem macroMapping_spec (groups : List (List (String × String))) (m : Binding) (hd : groups.Pairwise fun a b => ∀ x ∈ a, x ∉ b) :
    let r := groups.foldl (fun m g => if g.length > 1 then g.foldl (fun m p => Py.dictSet m p (groupName g)) m else m) m
    (∀ g ∈ groups, g.length > 1 → ∀ k ∈ g, r.lookup k = some (groupName g)) ∧
    (∀ k, (∀ g ∈ groups, g.length > 1 → k ∉ g) → r.lookup k = m.lookup k) ∧
    ((∀ g ∈ groups, ∀ p ∈ g, p ∈ m.map Prod.fst) → r.map Prod.fst = m.map Prod.fst) := by
  induction groups generalizing m with
  | nil => simp
  | cons g gs ih =>
    rw [List.pairwise_cons] at hd
    dsimp only
    rw [List.foldl_cons]
    by_cases hl : g.length > 1
    · simp only [hl, if_true]
      obtain ⟨s1, s2⟩ := setGroup_spec g (groupName g) m
      obtain ⟨i1, i2, i3⟩ := ih (g.foldl (fun m p => Py.dictSet m p (groupName g)) m) hd.2
      refine ⟨?_, ?_, ?_⟩
      · intro g' hg' hl' k hk
        rcases List.mem_cons.mp hg' with rfl | hg'
        · rw [i2 k (fun g'' hg'' _ hk' => hd.1 g'' hg'' k hk hk'), s1, if_pos hk]
        · exact i1 g' hg' hl' k hk
      · intro k hk
        rw [i2 k (fun g' hg' => hk g' (List.mem_cons_of_mem _ hg')), s1, if_neg (hk g List.mem_cons_self hl)]
      · intro h
        have e := s2 (h g List.mem_cons_self)
        rw [i3 (by rw [e]; exact fun g' hg' => h g' (List.mem_cons_of_mem _ hg')), e]
    · simp only [hl, if_false]
      obtain ⟨i1, i2, i3⟩ := ih m hd.2
      refine ⟨?_, ?_, fun h => i3 fun g' hg' => h g' (List.mem_cons_of_mem _ hg')⟩
      · intro g' hg' hl' k hk
        rcases List.mem_cons.mp hg' with rfl | hg'
        · exact absurd hl' hl
        · exact i1 g' hg' hl' k hk
      · exact fun k hk => i2 k fun g' hg' => hk g' (List.mem_cons_of_mem _ hg')

/-- Parameters of one group get the same name. -/
theorem mapping_group {groups : List (List (String × String))} {acts : List MicroAct}
    (hd : groups.Pairwise fun a b => ∀ x ∈ a, x ∉ b) {g : List (String × String)} (hg : g ∈ groups)
    {p q : String × String} (hp : p ∈ g) (hq : q ∈ g) : (macroMapping groups acts).lookup p = (macroMapping groups acts).lookup q := by
  obtain ⟨h1, _, _⟩ := macroMapping_spec groups (initialBinding acts) hd
  by_cases hl : g.length > 1
  · exact (h1 g hg hl p hp).trans (h1 g hg hl q hq).symm
  · match g, hp, hq, hl with
    | [x], hp, hq, _ => rw [List.mem_singleton.mp hp, List.mem_singleton.mp hq]
    | _ :: _ :: _, _, _, hl => simp at hl

theorem mapping_keys {groups : List (List (String × String))} {acts : List MicroAct} (ha : GoodActs acts)
    (hd : groups.Pairwise fun a b => ∀ x ∈ a, x ∉ b) (hk : ∀ g ∈ groups, ∀ p ∈ g, p ∈ microKeys acts) :
    (macroMapping groups acts).map Prod.fst = microKeys acts := by
  rw [← initialBinding_keys ha] at hk ⊢
  exact (macroMapping_spec groups (initialBinding acts) hd).2.2 hk

/-! ### The signature of the macro -/

theorem allParams_eq {acts : List MicroAct} (h : GoodActs acts) :
    allParams acts = acts.flatMap (fun a => a.2.map fun p => ((a.1, p.1), p.2)) ∧ (allParams acts).map Prod.fst = microKeys acts := by
  have e : (acts.flatMap fun a => a.2.map fun p => ((a.1, p.1), p.2)).map Prod.fst = microKeys acts := by
    unfold microKeys
    rw [List.map_flatMap]
    congr 1; funext a
    simp [Sig.names, List.map_map, Function.comp_def]
  have e2 : allParams acts = acts.flatMap (fun a => a.2.map fun p => ((a.1, p.1), p.2)) :=
    Py.dictOf_of_nodup (by rw [e]; exact microKeys_nodup h)
  exact ⟨e2, by rw [e2, e]⟩

theorem sig_fold (m : Binding) (l : List ((String × String) × PType)) (sig : Sig) (hs : (Sig.names sig).Nodup) :
    let r := l.foldl (fun sig kt => match m.lookup kt.1 with
      | none => sig
      | some x => match sig.lookup x with
        | none => Py.dictSet sig x kt.2
        | some t => Py.dictSet sig x (returnSub kt.2 t)) sig
    (Sig.names r).Nodup ∧ ∀ x, x ∈ Sig.names r ↔ x ∈ Sig.names sig ∨ ∃ kt ∈ l, m.lookup kt.1 = some x := by
  induction l generalizing sig with
  | nil => simp [hs]
  | cons kt l ih =>
    dsimp only
    rw [List.foldl_cons]
    cases hm : m.lookup kt.1 with
    | none =>
      obtain ⟨i1, i2⟩ := ih sig hs
      refine ⟨i1, fun x => (i2 x).trans ?_⟩
      simp only [List.mem_cons, exists_eq_or_imp, hm, reduceCtorEq, false_or]
    | some y =>
      have hset : ∀ t, (Sig.names (Py.dictSet sig y t)).Nodup ∧ ∀ x, x ∈ Sig.names (Py.dictSet sig y t) ↔ x ∈ Sig.names sig ∨ x = y := by
        intro t
        unfold Sig.names at *
        rw [Py.keys_dictSet]
        split
        · rename_i hy; exact ⟨hs, fun x => ⟨Or.inl, fun h => h.elim id fun e => e ▸ hy⟩⟩
        · rename_i hy
          refine ⟨List.nodup_append.mpr ⟨hs, by simp, ?_⟩, by simp⟩
          rintro a ha b hb rfl; exact hy ((List.mem_singleton.mp hb) ▸ ha)
      have step : ∀ sig', (Sig.names sig').Nodup → (∀ x, x ∈ Sig.names sig' ↔ x ∈ Sig.names sig ∨ x = y) →
          let r := l.foldl (fun sig kt => match m.lookup kt.1 with
            | none => sig
            | some x => match sig.lookup x with
              | none => Py.dictSet sig x kt.2
              | some t => Py.dictSet sig x (returnSub kt.2 t)) sig'
          (Sig.names r).Nodup ∧ ∀ x, x ∈ Sig.names r ↔ x ∈ Sig.names sig ∨ ∃ k ∈ kt :: l, m.lookup k.1 = some x := by
        intro sig' h1 h2
        obtain ⟨i1, i2⟩ := ih sig' h1
        refine ⟨i1, fun x => (i2 x).trans ?_⟩
        rw [h2]
        simp only [List.mem_cons, exists_eq_or_imp, hm, Option.some.injEq]
        rw [or_assoc, eq_comm (a := x) (b := y)]
      dsimp only
      split
      · exact step _ (hset _).1 (hset _).2
      · exact step _ (hset _).1 (hset _).2

theorem macroSignature_names {acts : List MicroAct} (ha : GoodActs acts) (m : Binding) :
    (Sig.names (macroSignature acts m)).Nodup ∧
    ∀ x, x ∈ Sig.names (macroSignature acts m) ↔ ∃ k ∈ microKeys acts, m.lookup k = some x := by
  obtain ⟨h1, h2⟩ := sig_fold m (allParams acts) [] (by simp [Sig.names])
  refine ⟨h1, fun x => (h2 x).trans ?_⟩
  have e : (Sig.names ([] : Sig)) = [] := rfl
  rw [e]
  simp only [List.not_mem_nil, false_or]
  constructor
  · rintro ⟨kt, hk, h⟩
    exact ⟨kt.1, by rw [← (allParams_eq ha).2]; exact List.mem_map_of_mem hk, h⟩
  · rintro ⟨k, hk, h⟩
    rw [← (allParams_eq ha).2] at hk
    obtain ⟨kt, hkt, rfl⟩ := List.mem_map.mp hk
    exact ⟨kt, hkt, h⟩

end Model
