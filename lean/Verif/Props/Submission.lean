import Verif.Model.Submission
import Verif.Props.Cluster

/-! C131: submission scripts and the queue of the cluster. -/
namespace Props
namespace Submission
open Model Model.Submission
open Model.Results (num)
open Spec.Jobs (Text)

variable {α : Type}

/-- The jobs of the cluster. -/
abbrev Jobs (α : Type) := Nat → Option (Work α × Status)

/-- The job is on the cluster and has not ended. -/
def Open (J : Jobs α) (id : Nat) (x : Work α) : Prop := ∃ st, J id = some (x, st) ∧ ∀ ok, st ≠ .ended ok

/-- Nobody interferes: `squeue` answers with a text with the ids of all jobs that have not ended, a failing `sbatch` has not accepted the job, and no other program
touches the file. -/
def Fair (w : World α) : Event α → Prop
  | .listing t => ∀ id x, Open w.jobs id x → num id <:+: t
  | .noListing | .lose _ | .otherWrite _ | .otherUnlink => False
  | _ => True

/-- All events are fair at their time. -/
def FairRun (plan : List (Work α)) : World α → List (Event α) → Prop
  | _, [] => True
  | w, e :: es => Fair w e ∧ ∀ w', step plan w e = some w' → FairRun plan w' es

/-! ### Jobs over time -/

def Fresh (J : Jobs α) (x : Work α) : Prop := ∀ id st, J id ≠ some (x, st)
def Closed (J : Jobs α) (x : Work α) : Prop := ∀ id, ¬ Open J id x
def Has (J : Jobs α) (x : Work α) : Prop := ∃ id st, J id = some (x, st)
def Done (J : Jobs α) (id : Nat) : Prop := ∀ x, ¬ Open J id x

/-- Jobs have been started and have ended, no more. -/
structure Evolves (J J' : Jobs α) : Prop where
  back : ∀ {i x st'}, J' i = some (x, st') → ∃ st, J i = some (x, st) ∧ ((∀ ok, st' ≠ .ended ok) → ∀ ok, st ≠ .ended ok)
  forth : ∀ {i x st}, J i = some (x, st) → ∃ st', J' i = some (x, st')

theorem Evolves.refl (J : Jobs α) : Evolves J J := ⟨fun h => ⟨_, h, id⟩, fun h => ⟨_, h⟩⟩

theorem Evolves.update {J : Jobs α} {i : Nat} {x : Work α} {st st' : Status} (h : J i = some (x, st)) (hs : ∀ ok, st ≠ .ended ok) :
    Evolves J (Function.update J i (some (x, st'))) := by
  constructor
  · intro k y s hk
    by_cases e : k = i
    · subst e
      rw [Function.update_self] at hk
      cases hk
      exact ⟨st, h, fun _ => hs⟩
    · rw [Function.update_of_ne e] at hk
      exact ⟨s, hk, id⟩
  · intro k y s hk
    by_cases e : k = i
    · subst e
      rw [h] at hk
      cases hk
      exact ⟨st', Function.update_self _ _ _⟩
    · exact ⟨s, (Function.update_of_ne e _ _).trans hk⟩

variable {J J' : Jobs α} {x y : Work α} {i k : Nat}

theorem Evolves.openBack (h : Evolves J J') (ho : Open J' i x) : Open J i x := by
  obtain ⟨st', e, hs⟩ := ho
  obtain ⟨st, e', hk⟩ := h.back e
  exact ⟨st, e', hk hs⟩

theorem Evolves.fresh (h : Evolves J J') (hf : Fresh J x) : Fresh J' x := by
  intro id st e
  obtain ⟨st', e', _⟩ := h.back e
  exact hf _ _ e'

theorem Evolves.closed (h : Evolves J J') (hf : Closed J x) : Closed J' x := fun id ho => hf id (h.openBack ho)
theorem Evolves.done (h : Evolves J J') (hf : Done J i) : Done J' i := fun x ho => hf x (h.openBack ho)
theorem Evolves.has (h : Evolves J J') : Has J x → Has J' x := by
  rintro ⟨id, st, e⟩
  obtain ⟨st', e'⟩ := h.forth e
  exact ⟨id, st', e'⟩

theorem fresh_closed (h : Fresh J x) : Closed J x := by
  rintro id ⟨st, e, _⟩
  exact h id st e

section submit
variable {f : Option (Work α)} {s : Script α}

theorem submit_self (J : Jobs α) (f s) (i : Nat) (y : Work α) : submit ⟨J, f, s⟩ i y i = some (y, .pending) := Function.update_self _ _ _
theorem submit_ne (J : Jobs α) (f s) (y : Work α) (h : k ≠ i) : submit ⟨J, f, s⟩ i y k = J k := Function.update_of_ne h _ _

theorem submit_inv {J : Jobs α} {st : Status} (h : submit ⟨J, f, s⟩ i y k = some (x, st)) : (k = i ∧ x = y ∧ st = .pending) ∨ (k ≠ i ∧ J k = some (x, st)) := by
  by_cases e : k = i
  · subst e
    rw [submit_self] at h
    cases h
    exact .inl ⟨rfl, rfl, rfl⟩
  · rw [submit_ne _ _ _ _ e] at h
    exact .inr ⟨e, h⟩

theorem submit_fresh (h : Fresh J x) (hne : x ≠ y) : Fresh (submit ⟨J, f, s⟩ i y) x := by
  intro id st e
  rcases submit_inv e with ⟨_, h1, _⟩ | ⟨_, h1⟩
  · exact hne h1
  · exact h _ _ h1

theorem submit_has (hi : J i = none) (h : Has J x) : Has (submit ⟨J, f, s⟩ i y) x := by
  obtain ⟨id, st, e⟩ := h
  have : id ≠ i := by rintro rfl; rw [hi] at e; cases e
  exact ⟨id, st, (submit_ne _ _ _ _ this).trans e⟩

theorem submit_has_self : Has (submit ⟨J, f, s⟩ i y) y := ⟨i, _, submit_self _ _ _ _ _⟩

theorem submit_closed (h : Closed J x) (hne : x ≠ y) : Closed (submit ⟨J, f, s⟩ i y) x := by
  rintro id ⟨st, e, hs⟩
  rcases submit_inv e with ⟨_, h1, _⟩ | ⟨_, h1⟩
  · exact hne h1
  · exact h _ ⟨st, h1, hs⟩
end submit

/-! ### The invariant -/

/-- At most one job of each kind has not ended. -/
def Unique (J : Jobs α) : Prop := ∀ i k x, Open J i x → Open J k x → i = k

variable (folders plan : List (Work α))

/-- While the folders are submitted. -/
structure Early (J : Jobs α) (sids : List Nat) (todo : List (Work α)) : Prop where
  only : ∀ {i x st}, J i = some (x, st) → x ∈ folders ∧ i ∈ sids
  sub : ∀ x ∈ todo, x ∈ folders
  nodup : todo.Nodup
  fresh : ∀ x ∈ todo, Fresh J x
  all : ∀ x ∈ folders, x ∈ todo ∨ Has J x

/-- While the runs are submitted. -/
structure Late (J : Jobs α) (todo : List (Work α)) : Prop where
  known : ∀ {i x st}, J i = some (x, st) → x ∈ folders ∨ x ∈ plan
  before : ∀ x ∈ folders, Closed J x
  sub : ∀ x ∈ todo, x ∈ plan
  nodup : todo.Nodup
  fresh : ∀ x ∈ todo.tail, Fresh J x
  has : ∀ x ∈ folders, Has J x
  all : ∀ x ∈ plan, x ∈ todo ∨ Has J x

def Phase (J : Jobs α) (file : Option (Work α)) : Script α → Prop
  | .folders _ written todo sids => Early folders J sids todo ∧ (written = true → file = todo.head?)
  | .foldersUnlink todo sids => Early folders J sids todo ∧ file ≠ none
  | .poll sids rest any => Early folders J sids [] ∧ ∀ i ∈ sids, i ∈ rest ∨ any = true ∨ Done J i
  | .runs _ written todo => Late folders plan J todo ∧ (written = true → file = todo.head?) ∧ ∀ x ∈ todo.head?, Closed J x
  | .check sid todo => Late folders plan J todo ∧ ∃ x t, todo = x :: t ∧ (∃ st, J sid = some (x, st)) ∧ (∀ i, Open J i x → i = sid) ∧ file ≠ none
  | .runsUnlink todo => Late folders plan J todo ∧ file ≠ none ∧ ∀ x ∈ todo.head?, Closed J x
  | .finished => Late folders plan J []
  | .raised => (∀ {i x st}, J i = some (x, st) → x ∈ folders) ∨ ((∀ x ∈ folders, Closed J x) ∧ ∀ {i x st}, J i = some (x, st) → x ∈ folders ∨ x ∈ plan)

structure Inv (w : World α) : Prop where
  unique : Unique w.jobs
  phase : Phase folders plan w.jobs w.file w.script

variable {folders plan}

theorem Early.evolve {sids : List Nat} {todo : List (Work α)} (h : Early folders J sids todo) (he : Evolves J J') : Early folders J' sids todo :=
  ⟨fun e => let ⟨_, e', _⟩ := he.back e; h.only e', h.sub, h.nodup, fun x hx => he.fresh (h.fresh x hx), fun x hx => (h.all x hx).imp id he.has⟩

theorem Late.evolve {todo : List (Work α)} (h : Late folders plan J todo) (he : Evolves J J') : Late folders plan J' todo :=
  ⟨fun e => let ⟨_, e', _⟩ := he.back e; h.known e', fun x hx => he.closed (h.before x hx), h.sub, h.nodup, fun x hx => he.fresh (h.fresh x hx),
    fun x hx => he.has (h.has x hx), fun x hx => (h.all x hx).imp id he.has⟩

theorem Phase.evolve {file : Option (Work α)} {s : Script α} (h : Phase folders plan J file s) (he : Evolves J J') : Phase folders plan J' file s := by
  cases s with
  | folders a wr todo sids => exact ⟨h.1.evolve he, h.2⟩
  | foldersUnlink todo sids => exact ⟨h.1.evolve he, h.2⟩
  | poll sids rest any => exact ⟨h.1.evolve he, fun i hi => (h.2 i hi).imp id (Or.imp id he.done)⟩
  | runs a wr todo => exact ⟨h.1.evolve he, h.2.1, fun x hx => he.closed (h.2.2 x hx)⟩
  | check sid todo =>
    obtain ⟨h1, x, t, h2, ⟨st, h3⟩, h4, h5⟩ := h
    exact ⟨h1.evolve he, x, t, h2, he.forth h3, fun i hi => h4 i (he.openBack hi), h5⟩
  | runsUnlink todo => exact ⟨h.1.evolve he, h.2.1, fun x hx => he.closed (h.2.2 x hx)⟩
  | finished => exact Late.evolve h he
  | raised =>
    rcases h with h | ⟨h1, h2⟩
    · exact .inl fun e => let ⟨_, e', _⟩ := he.back e; h e'
    · exact .inr ⟨fun x hx => he.closed (h1 x hx), fun e => let ⟨_, e', _⟩ := he.back e; h2 e'⟩

theorem Inv.evolve {w : World α} (h : Inv folders plan w) (he : Evolves w.jobs J') : Inv folders plan { w with jobs := J' } :=
  ⟨fun i k x hi hk => h.unique i k x (he.openBack hi) (he.openBack hk), h.phase.evolve he⟩

/-- After the last of the work in the list has been dealt with. -/
theorem Late.tail {t : List (Work α)} (h : Late folders plan J (x :: t)) (hx : Has J x) :
    Late folders plan J t ∧ ∀ z ∈ t.head?, Closed J z := by
  refine ⟨⟨h.known, h.before, fun z hz => h.sub z (List.mem_cons_of_mem _ hz), (List.nodup_cons.mp h.nodup).2,
    fun z hz => h.fresh z (List.mem_of_mem_tail hz), h.has, fun z hz => ?_⟩, fun z hz => fresh_closed (h.fresh z (List.mem_of_mem_head? hz))⟩
  rcases h.all z hz with hm | hm
  · rcases List.mem_cons.mp hm with rfl | hm
    · exact .inr hx
    · exact .inl hm
  · exact .inr hm

theorem unique_submit (hu : Unique J) (hc : Closed J y) {f : Option (Work α)} {s : Script α} : Unique (submit ⟨J, f, s⟩ i y) := by
  rintro a b x ⟨st, e, hs⟩ ⟨st', e', hs'⟩
  rcases submit_inv e with ⟨h1, h2, _⟩ | ⟨h1, h2⟩ <;> rcases submit_inv e' with ⟨h3, h4, _⟩ | ⟨h3, h4⟩
  · rw [h1, h3]
  · exact absurd ⟨st', h2 ▸ h4, hs'⟩ (hc b)
  · exact absurd ⟨st, h4 ▸ h2, hs⟩ (hc a)
  · exact hu a b x ⟨st, h2, hs⟩ ⟨st', h4, hs'⟩

theorem Early.raised {sids : List Nat} {todo : List (Work α)} (h : Early folders J sids todo) {file : Option (Work α)} :
    Phase folders plan J file .raised := .inl fun e => (h.only e).1

theorem Late.raised {todo : List (Work α)} (h : Late folders plan J todo) {file : Option (Work α)} :
    Phase folders plan J file .raised := .inr ⟨h.before, h.known⟩

/-- Each fair event keeps the invariant. -/
theorem step_inv (hn : plan.Nodup) (hd : ∀ x ∈ folders, x ∉ plan) {w w' : World α} {e : Event α} (hf : Fair w e)
    (h : Inv folders plan w) (hs : step plan w e = some w') : Inv folders plan w' := by
  obtain ⟨J, file, s⟩ := w
  obtain ⟨hu, hp⟩ := h
  cases e with
  | start id =>
    unfold step at hs
    dsimp only at hs hu
    split at hs
    · rename_i x hj
      cases hs
      exact Inv.evolve ⟨hu, hp⟩ (Evolves.update hj (by simp))
    · cases hs
  | stop id ok =>
    unfold step at hs
    dsimp only at hs hu
    split at hs
    · cases hs
    · rename_i x st hne hj
      cases hs
      exact Inv.evolve ⟨hu, hp⟩ (Evolves.update hj (fun ok e => hne ok e))
    · cases hs
  | write =>
    unfold step at hs
    dsimp only at hs hu hp
    split at hs
    · cases hs
      exact ⟨hu, hp.1, fun _ => rfl⟩
    · cases hs
      exact ⟨hu, hp.1, fun _ => rfl, hp.2.2⟩
    · cases hs
  | accept id =>
    unfold step at hs
    dsimp only at hs hu hp
    split at hs
    · rename_i a x t sids y hfree
      cases hs
      obtain ⟨h1, h2⟩ := hp
      have e : y = x := by simpa using h2 rfl
      subst e
      have hfr := h1.fresh y List.mem_cons_self
      obtain ⟨n1, n2⟩ := List.nodup_cons.mp h1.nodup
      refine ⟨unique_submit hu (fresh_closed hfr), ⟨?_, fun z hz => h1.sub z (List.mem_cons_of_mem _ hz), n2, ?_, ?_⟩, by simp⟩
      · intro i z st e
        rcases submit_inv e with ⟨rfl, rfl, _⟩ | ⟨_, e⟩
        · exact ⟨h1.sub _ List.mem_cons_self, by simp⟩
        · exact ⟨(h1.only e).1, List.mem_append_left _ (h1.only e).2⟩
      · intro z hz
        exact submit_fresh (h1.fresh z (List.mem_cons_of_mem _ hz)) (by rintro rfl; exact n1 hz)
      · intro z hz
        rcases h1.all z hz with hm | hm
        · rcases List.mem_cons.mp hm with rfl | hm
          · exact .inr submit_has_self
          · exact .inl hm
        · exact .inr (submit_has hfree hm)
    · rename_i a x t y hfree
      cases hs
      obtain ⟨h1, h2, h3⟩ := hp
      have e : y = x := by simpa using h2 rfl
      subst e
      have hcl : Closed J y := h3 y rfl
      obtain ⟨n1, n2⟩ := List.nodup_cons.mp h1.nodup
      refine ⟨unique_submit hu hcl, ⟨?_, ?_, h1.sub, h1.nodup, ?_, fun z hz => submit_has hfree (h1.has z hz), ?_⟩, y, t, rfl, ⟨_, submit_self _ _ _ _ _⟩, ?_, by simp⟩
      · intro i z st e
        rcases submit_inv e with ⟨rfl, rfl, _⟩ | ⟨_, e⟩
        · exact .inr (h1.sub _ List.mem_cons_self)
        · exact h1.known e
      · intro z hz
        exact submit_closed (h1.before z hz) (by rintro rfl; exact hd _ hz (h1.sub _ List.mem_cons_self))
      · intro z hz
        exact submit_fresh (h1.fresh z hz) (by rintro rfl; exact n1 hz)
      · intro z hz
        exact (h1.all z hz).imp (fun h => h) (submit_has hfree)
      · rintro i ⟨st, e, hs⟩
        rcases submit_inv e with ⟨h, _⟩ | ⟨_, e⟩
        · exact h
        · exact absurd ⟨st, e, hs⟩ (hcl i)
    · cases hs
  | refuse =>
    unfold step at hs
    dsimp only at hs hu hp
    split at hs
    · rename_i a x t sids
      cases hs
      refine ⟨hu, ?_⟩
      unfold refused
      cases a with
      | true => exact hp.1.raised
      | false => exact ⟨hp.1, by simp⟩
    · rename_i a x t
      cases hs
      refine ⟨hu, ?_⟩
      unfold refused
      cases a with
      | true => exact hp.1.raised
      | false => exact ⟨hp.1, by simp, hp.2.2⟩
    · cases hs
  | lose k => exact absurd hf (fun h => h)
  | unlink =>
    unfold step at hs
    dsimp only at hs hu hp
    split at hs
    · rename_i t sids
      cases hs
      refine ⟨hu, ?_⟩
      rw [if_neg (by simpa [Option.isNone_iff_eq_none] using hp.2)]
      exact ⟨hp.1, by simp⟩
    · rename_i t
      cases hs
      refine ⟨hu, ?_⟩
      rw [if_neg (by simpa [Option.isNone_iff_eq_none] using hp.2.1)]
      exact ⟨hp.1, by simp, hp.2.2⟩
    · cases hs
  | listing t =>
    have hf : ∀ id x, Open J id x → num id <:+: t := hf
    unfold step at hs
    dsimp only at hs hu hp
    split at hs
    · rename_i sids x r any
      cases hs
      refine ⟨hu, hp.1, ?_⟩
      intro i hi
      rcases hp.2 i hi with h | h | h
      · rcases List.mem_cons.mp h with rfl | h
        · right
          by_cases hsh : shown i t = true
          · left; simp [hsh]
          · right
            intro z hz
            exact hsh (by unfold shown; exact decide_eq_true (hf i z hz))
        · exact .inl h
      · right; left; rw [h]; rfl
      · exact .inr (.inr h)
    · rename_i sid todo
      cases hs
      refine ⟨hu, ?_⟩
      obtain ⟨h1, x, tl, rfl, ⟨st, h3⟩, h4, h5⟩ := hp
      have hx : Has J x := ⟨sid, st, h3⟩
      obtain ⟨l1, l2⟩ := h1.tail hx
      unfold checked
      cases x with
      | run a =>
        dsimp only
        split
        · exact ⟨l1, h5, l2⟩
        · rename_i hsh
          refine ⟨h1, by simp, ?_⟩
          intro z hz
          cases hz
          intro i hi
          have := h4 i hi
          subst this
          exact hsh (by unfold shown; exact decide_eq_true (hf i _ hi))
      | folders a => exact ⟨l1, by simp, l2⟩
      | triplets a => exact ⟨l1, by simp, l2⟩
    · cases hs
  | noListing => exact absurd hf id
  | next =>
    unfold step at hs
    dsimp only at hs hu hp
    split at hs
    · cases hs
      exact ⟨hu, hp.1, fun i hi => .inl hi⟩
    · rename_i sids any
      cases hs
      refine ⟨hu, ?_⟩
      obtain ⟨h1, h2⟩ := hp
      cases any with
      | true => exact ⟨h1, fun i hi => .inl hi⟩
      | false =>
        have hnone : ∀ x ∈ plan, Fresh J x := fun x hx id st e => hd x (h1.only e).1 hx
        refine ⟨⟨fun e => .inl (h1.only e).1, ?_, fun x hx => hx, hn, fun x hx => hnone x (List.mem_of_mem_tail hx), ?_, fun x hx => .inl hx⟩, by simp,
          fun x hx => fresh_closed (hnone x (List.mem_of_mem_head? hx))⟩
        · rintro x hx i ⟨st, e, hs⟩
          rcases h2 i (h1.only e).2 with h | h | h
          · simp at h
          · simp at h
          · exact h x ⟨st, e, hs⟩
        · intro x hx
          exact (h1.all x hx).resolve_left (by simp)
    · cases hs
      exact ⟨hu, ⟨hp.1.known, hp.1.before, hp.1.sub, hp.1.nodup, hp.1.fresh, hp.1.has, hp.1.all⟩⟩
    · cases hs
  | otherWrite x => exact absurd hf id
  | otherUnlink => exact absurd hf id

theorem initial_inv (hn : folders.Nodup) : Inv folders plan (initial folders) :=
  ⟨fun i _ _ h _ => (nomatch (show (none : Option (Work α × Status)) = some _ from h.choose_spec.1)),
    ⟨⟨fun e => (nomatch e), fun _ hx => hx, hn, fun _ _ _ _ e => (nomatch e), fun _ hx => .inl hx⟩, by simp⟩⟩

theorem run_inv (hn : plan.Nodup) (hd : ∀ x ∈ folders, x ∉ plan) : ∀ {es : List (Event α)} {w w' : World α}, Inv folders plan w → FairRun plan w es →
    run plan w es = some w' → Inv folders plan w' := by
  intro es
  induction es with
  | nil => intro w w' h _ hr; cases hr; exact h
  | cons e es ih =>
    intro w w' h hf hr
    unfold run at hr
    cases hs : step plan w e with
    | none => rw [hs] at hr; cases hr
    | some w1 =>
      rw [hs] at hr
      exact ih (step_inv hn hd hf.1 h hs) (hf.2 w1 hs) hr

section
variable {es : List (Event α)} {w : World α} (hn : (folders ++ plan).Nodup) (hf : FairRun plan (initial folders) es) (hr : run plan (initial folders) es = some w)
include hn hf hr

theorem reached : Inv folders plan w := by
  obtain ⟨h1, h2, h3⟩ := List.nodup_append.mp hn
  exact run_inv h2 (fun x hx hp => h3 x hx x hp rfl) (initial_inv h1) hf hr

/-- **C131, order.** At every moment: if a run is on the cluster, then every job that creates folders has ended. -/
theorem C131_order {id id' : Nat} {x x' : Work α} {st st' : Status} (h : w.jobs id = some (x, st)) (hx : x ∈ plan) (h' : w.jobs id' = some (x', st'))
    (hx' : x' ∈ folders) : ∃ ok, st' = .ended ok := by
  have hi := reached hn hf hr
  obtain ⟨_, _, h3⟩ := List.nodup_append.mp hn
  have hnf : x ∉ folders := fun hm => h3 x hm x hx rfl
  have hc : ∀ x ∈ folders, Closed w.jobs x := by
    have hp := hi.phase
    cases hs : w.script <;> rw [hs] at hp
    · exact absurd (hp.1.only h).1 hnf
    · exact absurd (hp.1.only h).1 hnf
    · exact absurd (hp.1.only h).1 hnf
    · exact hp.1.before
    · exact hp.1.before
    · exact hp.1.before
    · exact hp.before
    · rcases hp with hp | hp
      · exact absurd (hp h) hnf
      · exact hp.1
  by_contra hne
  exact hc x' hx' id' ⟨st', h', fun ok e => hne ⟨ok, e⟩⟩

/-- **C131, no two at once.** At every moment, of the jobs submitted for the same work at most one has not ended, and nothing else is submitted. -/
theorem C131_once : (∀ i k x, Open w.jobs i x → Open w.jobs k x → i = k) ∧ ∀ i x st, w.jobs i = some (x, st) → x ∈ folders ∨ x ∈ plan := by
  have hi := reached hn hf hr
  refine ⟨hi.unique, fun i x st h => ?_⟩
  have hp := hi.phase
  cases hs : w.script <;> rw [hs] at hp
  · exact .inl (hp.1.only h).1
  · exact .inl (hp.1.only h).1
  · exact .inl (hp.1.only h).1
  · exact hp.1.known h
  · exact hp.1.known h
  · exact hp.1.known h
  · exact hp.known h
  · rcases hp with hp | hp
    · exact .inl (hp h)
    · exact hp.2 h

/-- **C131, all.** When the script has ended normally, everything has been submitted. -/
theorem C131_all (he : w.script = .finished) : ∀ x ∈ folders ++ plan, ∃ i st, w.jobs i = some (x, st) := by
  have hp := (reached hn hf hr).phase
  rw [he] at hp
  intro x hx
  rcases List.mem_append.mp hx with h | h
  · exact hp.has x h
  · exact (hp.all x h).resolve_left (by simp)

end

/-! ### Waiting -/

/-- **C131, the wait ends.** When the answers of one round show none of the ids, the script goes on to the runs. -/
theorem C131_wait_ends {sids : List Nat} : ∀ {rest : List Nat} {ts : List Text}, List.Forall₂ (fun i t => ¬ num i <:+: t) rest ts → ∀ {w : World α},
    w.script = .poll sids rest false → run plan w (ts.map .listing ++ [.next]) = some { w with script := .runs false false plan } := by
  intro rest ts h
  induction h with
  | nil => intro w hw; simp [run, step, hw]
  | cons hab _ ih =>
    rename_i i t r ts' _
    intro w hw
    have h1 : step plan w (.listing t) = some { w with script := .poll sids r false } := by
      unfold step
      rw [hw]
      dsimp only
      rw [show shown i t = false from decide_eq_false hab]
      rfl
    rw [List.map_cons, List.cons_append, run, h1]
    exact ih rfl

/-- **C131, the wait does not end.** As long as every answer of `squeue` contains the digits of the id of some folder job, in whatever line, no run is submitted, also
if the folder jobs have ended. -/
theorem C131_waits {id : Nat} : ∀ {es : List (Event α)} {w w' : World α} {sids rest : List Nat} {any : Bool}, w.script = .poll sids rest any → id ∈ sids →
    (id ∈ rest ∨ any = true) → (∀ t, .listing t ∈ es → num id <:+: t) → .noListing ∉ es → run plan w es = some w' →
    ∃ sids rest any, w'.script = .poll sids rest any := by
  intro es
  induction es with
  | nil => intro w w' sids rest any hw _ _ _ _ hr; cases hr; exact ⟨_, _, _, hw⟩
  | cons e es ih =>
    intro w w' sids rest any hw hm hk hl hno hr
    unfold run at hr
    cases hs : step plan w e with
    | none => rw [hs] at hr; cases hr
    | some w1 =>
      rw [hs] at hr
      have key : ∃ sids rest any, w1.script = .poll sids rest any ∧ id ∈ sids ∧ (id ∈ rest ∨ any = true) := by
        cases e <;> simp only [step, hw] at hs
        · split at hs <;> cases hs
          exact ⟨_, _, _, rfl, hm, hk⟩
        · split at hs <;> cases hs
          exact ⟨_, _, _, rfl, hm, hk⟩
        · cases hs
        · cases hs
        · cases hs
        · cases hs
        · cases hs
        · rename_i t
          split at hs
          · rename_i s r rest' any' heq
            cases heq
            cases hs
            refine ⟨_, _, _, rfl, hm, ?_⟩
            rcases hk with hk | hk
            · rcases List.mem_cons.mp hk with rfl | hk
              · right
                rw [show shown id t = true from decide_eq_true (hl t List.mem_cons_self)]
                simp
              · exact .inl hk
            · right; rw [hk]; rfl
          · simp_all
          · cases hs
        · exact absurd List.mem_cons_self hno
        · split at hs
          · simp_all
          · rename_i heq
            cases heq
            cases hs
            rcases hk with hk | hk
            · simp at hk
            · rw [hk]; exact ⟨_, _, _, rfl, hm, .inl hm⟩
          · simp_all
          · cases hs
        · cases hs; exact ⟨_, _, _, rfl, hm, hk⟩
        · cases hs; exact ⟨_, _, _, rfl, hm, hk⟩
      obtain ⟨s', r', a', k1, k2, k3⟩ := key
      exact ih k1 k2 k3 (fun t ht => hl t (List.mem_cons_of_mem _ ht)) (fun h => hno (List.mem_cons_of_mem _ h)) hr

/-! ### The lists of work -/
open Model.Cluster (Experiment Arg numericFolds multiVersions)

/-- The runs of `numeric_experiments_sbatch_runner.py` for an experiment, each once. -/
def numericPlan (known : List Nat) (e : Experiment) (its : List Nat) (n : Nat) : List (Work (List Arg)) :=
  (numericFolds known e its (fun _ _ _ => 0) 0 n).1.map .run

/-- The runs of `multi_agent_experiments_sbatch_runner.py` for an experiment, each once. -/
def multiPlan (e : Experiment) (its : List Nat) (n : Nat) : List (Work (List Arg)) :=
  (List.range n).flatMap fun f => (multiVersions e its (fun _ _ => 0) f e.versions).map fun p => if p.1 then .triplets p.2 else .run p.2

theorem command_inj {e : Experiment} {f f' v v' i i' : Nat} (h : Cluster.command e f v i = Cluster.command e f' v' i') : f = f' ∧ v = v' ∧ i = i' := by
  unfold Cluster.command at h
  simp only [List.cons_append, List.nil_append, List.cons.injEq, Prod.mk.injEq, true_and, List.append_cancel_left_eq, and_true] at h
  exact ⟨Results.num_inj h.1, Results.num_inj h.2.1, Results.num_inj h.2.2⟩

/-- **C131, numeric experiments.** The runs of an experiment are those of its folds, versions and iterations, all different, and different from the jobs that create
folders; so the theorems above apply to them. -/
theorem C131_numeric_plan {known : List Nat} {e : Experiment} {its : List Nat} (h : ∀ v ∈ e.versions, v ∈ known) (hv : e.versions.Nodup) (hi : its.Nodup) (n : Nat)
    {fs : List (List Arg)} (hfs : fs.Nodup) :
    (fs.map Work.folders ++ numericPlan known e its n).Nodup ∧
    ∀ x, x ∈ numericPlan known e its n ↔ ∃ f < n, ∃ v ∈ e.versions, ∃ i ∈ its, x = .run (Cluster.command e f v i) := by
  have hmem : ∀ x, x ∈ numericPlan known e its n ↔ ∃ f < n, ∃ v ∈ e.versions, ∃ i ∈ its, x = .run (Cluster.command e f v i) := by
    intro x
    unfold numericPlan
    rw [Cluster.C114_submitted known e its _ h n]
    simp only [List.mem_map, List.mem_flatMap, List.mem_range]
    constructor
    · rintro ⟨a, ⟨f, hf, v, hv, i, hi, ha⟩, rfl⟩
      exact ⟨f, hf, v, hv, i, hi, by rw [List.eq_of_mem_replicate ha]⟩
    · rintro ⟨f, hf, v, hv, i, hi, rfl⟩
      exact ⟨_, ⟨f, hf, v, hv, i, hi, by simp⟩, rfl⟩
  refine ⟨List.nodup_append.mpr ⟨hfs.map (fun a b h => by cases h; rfl), ?_, ?_⟩, hmem⟩
  · unfold numericPlan
    rw [Cluster.C114_submitted known e its _ h n]
    refine List.Nodup.map (fun a b h => by cases h; rfl) ?_
    simp only [Nat.zero_add, List.replicate_one]
    refine List.nodup_flatMap.mpr ⟨fun f _ => List.nodup_flatMap.mpr ⟨fun v _ => List.nodup_flatMap.mpr ⟨fun i _ => List.nodup_singleton _, ?_⟩, ?_⟩, ?_⟩
    · refine hi.imp fun {i j} hne => ?_
      rw [Function.onFun, List.disjoint_singleton]
      simpa using fun he => hne (command_inj he).2.2.symm
    · refine hv.imp fun {v u} hne => ?_
      rw [Function.onFun, List.disjoint_left]
      intro a ha hb
      simp only [List.mem_flatMap, List.mem_singleton] at ha hb
      obtain ⟨i, _, rfl⟩ := ha
      obtain ⟨j, _, hj⟩ := hb
      exact hne (command_inj hj).2.1
    · refine List.nodup_range.imp fun {f g} hne => ?_
      rw [Function.onFun, List.disjoint_left]
      intro a ha hb
      simp only [List.mem_flatMap, List.mem_singleton] at ha hb
      obtain ⟨v, _, i, _, rfl⟩ := ha
      obtain ⟨u, _, j, _, hj⟩ := hb
      exact hne (command_inj hj).1
  · intro x hx y hy hxy
    subst hxy
    obtain ⟨a, _, rfl⟩ := List.mem_map.mp hx
    obtain ⟨_, _, _, _, _, _, h⟩ := (hmem _).mp hy
    cases h

/-- **C131, multi-agent experiments.** The runs of an experiment are those of its folds, versions and iterations and one over triplets for every fold and version, all
different, and different from the jobs that create folders. -/
theorem C131_multi_plan {e : Experiment} {its : List Nat} (hv : e.versions.Nodup) (hi : its.Nodup) (n : Nat) {fs : List (List Arg)} (hfs : fs.Nodup) :
    (fs.map Work.folders ++ multiPlan e its n).Nodup ∧
    ∀ x, x ∈ multiPlan e its n ↔ ∃ f < n, ∃ v ∈ e.versions,
      (∃ i ∈ its, x = .run (Cluster.command e f v i)) ∨ x = .triplets (Cluster.commandTriplets e f v) := by
  have heq : multiPlan e its n = (List.range n).flatMap fun f => e.versions.flatMap fun v =>
      (its.map fun i => Work.run (Cluster.command e f v i)) ++ [.triplets (Cluster.commandTriplets e f v)] := by
    unfold multiPlan
    congr 1
    funext f
    rw [Cluster.C114_submitted_multi]
    simp only [List.map_flatMap, List.map_append, List.map_cons, List.map_nil, Nat.zero_add, List.replicate_one, if_true]
    congr 1
    funext v
    congr 1
    simp [List.flatMap_singleton']
    induction its with
    | nil => rfl
    | cons i is ih => simp_all
  have hmem : ∀ x, x ∈ multiPlan e its n ↔ ∃ f < n, ∃ v ∈ e.versions,
      (∃ i ∈ its, x = .run (Cluster.command e f v i)) ∨ x = .triplets (Cluster.commandTriplets e f v) := by
    intro x
    rw [heq]
    simp only [List.mem_flatMap, List.mem_range, List.mem_append, List.mem_map, List.mem_singleton, eq_comm (b := x)]
  have hin : ∀ {f v x}, x ∈ (its.map fun i => Work.run (Cluster.command e f v i)) ++ [.triplets (Cluster.commandTriplets e f v)] →
      (∃ i ∈ its, x = .run (Cluster.command e f v i)) ∨ x = .triplets (Cluster.commandTriplets e f v) := by
    intro f v x h
    simpa only [List.mem_append, List.mem_map, List.mem_singleton, eq_comm (b := x)] using h
  have hdiff : ∀ {f f' v v' : Nat} {x : Work (List Arg)}, ((∃ i ∈ its, x = .run (Cluster.command e f v i)) ∨ x = .triplets (Cluster.commandTriplets e f v)) →
      ((∃ i ∈ its, x = .run (Cluster.command e f' v' i)) ∨ x = .triplets (Cluster.commandTriplets e f' v')) → f = f' ∧ v = v' := by
    intro f f' v v' x h h'
    rcases h with ⟨i, _, rfl⟩ | rfl
    · rcases h' with ⟨j, _, h'⟩ | h'
      · injection h' with h'
        exact ⟨(command_inj h').1, (command_inj h').2.1⟩
      · cases h'
    · rcases h' with ⟨j, _, h'⟩ | h'
      · cases h'
      · injection h' with h'
        unfold Cluster.commandTriplets at h'
        simp only [List.cons_append, List.nil_append, List.cons.injEq, Prod.mk.injEq, true_and, and_true] at h'
        exact ⟨Results.num_inj h'.1, Results.num_inj h'.2⟩
  refine ⟨List.nodup_append.mpr ⟨hfs.map (fun a b h => by cases h; rfl), ?_, ?_⟩, hmem⟩
  · rw [heq]
    refine List.nodup_flatMap.mpr ⟨fun f _ => List.nodup_flatMap.mpr ⟨fun v _ => ?_, ?_⟩, ?_⟩
    · refine List.nodup_append.mpr ⟨hi.map fun i j h => ?_, List.nodup_singleton _, ?_⟩
      · injection h with h
        exact (command_inj h).2.2
      · intro x hx y hy hxy
        rw [List.mem_singleton.mp hy] at hxy
        obtain ⟨i, _, rfl⟩ := List.mem_map.mp hx
        cases hxy
    · refine hv.imp fun {v u} hne => ?_
      rw [Function.onFun, List.disjoint_left]
      exact fun x hx hy => hne (hdiff (hin hx) (hin hy)).2
    · refine List.nodup_range.imp fun {f g} hne => ?_
      rw [Function.onFun, List.disjoint_left]
      intro x hx hy
      obtain ⟨v, _, hx⟩ := List.mem_flatMap.mp hx
      obtain ⟨u, _, hy⟩ := List.mem_flatMap.mp hy
      exact hne (hdiff (hin hx) (hin hy)).1
  · intro x hx y hy hxy
    subst hxy
    obtain ⟨a, _, rfl⟩ := List.mem_map.mp hx
    obtain ⟨_, _, _, _, ⟨_, _, h⟩ | h⟩ := (hmem _).mp hy <;> cases h

end Submission

/-! ### Concrete executions -/
namespace Submission.Case
open Model Model.Submission
open Model.Results (num)
open Spec.Jobs (Text)

/-- A test for fairness, if only these ids are used. -/
def fairB (ids : List Nat) (w : World Nat) : Event Nat → Bool
  | .listing t => ids.all fun id => match w.jobs id with
    | some (_, .ended _) => true
    | none => true
    | some _ => decide (num id <:+: t)
  | .noListing | .lose _ | .otherWrite _ | .otherUnlink => false
  | .accept id => ids.contains id
  | _ => true

def fairRunB (ids : List Nat) (plan : List (Work Nat)) : World Nat → List (Event Nat) → Bool
  | _, [] => true
  | w, e :: es => fairB ids w e && match step plan w e with
    | none => true
    | some w' => fairRunB ids plan w' es

theorem fair_of {ids : List Nat} {plan : List (Work Nat)} : ∀ {es : List (Event Nat)} {w : World Nat}, (∀ id ∉ ids, w.jobs id = none) →
    fairRunB ids plan w es = true → FairRun plan w es := by
  intro es
  induction es with
  | nil => intro w _ _; trivial
  | cons e es ih =>
    intro w hw h
    unfold fairRunB at h
    rw [Bool.and_eq_true] at h
    obtain ⟨h1, h2⟩ := h
    refine ⟨?_, fun w' hs => ?_⟩
    · cases e <;> simp only [fairB, Bool.false_eq_true] at h1 <;> try trivial
      rename_i t
      intro id x ho
      obtain ⟨st, e, hst⟩ := ho
      have hid : id ∈ ids := by
        by_contra hc
        rw [hw id hc] at e
        cases e
      have := List.all_eq_true.mp h1 id hid
      rw [e] at this
      cases st with
      | pending => exact of_decide_eq_true this
      | running => exact of_decide_eq_true this
      | ended ok => exact absurd rfl (hst ok)
    · rw [hs] at h2
      refine ih ?_ h2
      intro id hid
      have h0 := hw id hid
      cases e <;> simp only [step] at hs
      · split at hs <;> cases hs
        rename_i i _ x hj
        have : id ≠ i := by rintro rfl; rw [h0] at hj; cases hj
        exact (Function.update_of_ne this _ _).trans h0
      · split at hs <;> cases hs
        rename_i i ok _ x st hne hj
        have : id ≠ i := by rintro rfl; rw [h0] at hj; cases hj
        exact (Function.update_of_ne this _ _).trans h0
      · split at hs <;> cases hs <;> exact h0
      · rename_i i
        have : id ≠ i := by
          rintro rfl
          exact hid (by simpa [fairB] using h1)
        split at hs <;> cases hs <;> exact (Function.update_of_ne this _ _).trans h0
      · split at hs <;> cases hs <;> exact h0
      · cases h1
      · split at hs <;> cases hs <;> exact h0
      · split at hs <;> cases hs <;> exact h0
      · cases h1
      · split at hs <;> cases hs <;> exact h0
      · cases h1
      · cases h1

def folders : List (Work Nat) := [.folders 0, .folders 1]
def plan : List (Work Nat) := [.run 0, .run 1, .triplets 0]

/-- The text of `squeue` with the ids. -/
def queue (ids : List Nat) : Text := "JOBID".toList ++ ids.flatMap fun i => '\n' :: num i

/-- The creation of the folders, refused once; two rounds of waiting; a run that ends within two seconds and is submitted again; the others. -/
def good : List (Event Nat) :=
  [.write, .refuse, .write, .accept 12, .unlink, .write, .accept 13, .start 12, .unlink, .next, .listing (queue [12, 13]), .stop 12 false, .listing (queue [13]), .next,
   .start 13, .stop 13 true, .listing (queue []), .listing (queue []), .next,
   .write, .accept 20, .start 20, .stop 20 false, .listing (queue []), .write, .accept 21, .listing (queue [21]), .unlink,
   .write, .accept 22, .listing (queue [21, 22]), .unlink, .write, .accept 23, .start 23, .stop 23 true, .listing (queue [21, 22]), .next]

theorem good_fair : FairRun plan (initial folders) good := fair_of (ids := [12, 13, 20, 21, 22, 23]) (fun _ _ => rfl) (by decide +kernel)

/-- The hypotheses of the theorems are met; the first job of the folders failed, and the runs were submitted all the same. -/
example : ∃ w, run plan (initial folders) good = some w ∧ w.script = .finished ∧ w.jobs 12 = some (.folders 0, .ended false) ∧ w.jobs 20 = some (.run 0, .ended false) ∧
    w.jobs 21 = some (.run 0, .pending) := by
  have h : ((run plan (initial folders) good).all fun w => decide (w.script = .finished) && decide (w.jobs 12 = some (.folders 0, .ended false)) &&
      decide (w.jobs 20 = some (.run 0, .ended false)) && decide (w.jobs 21 = some (.run 0, .pending))) = true := by decide +kernel
  have hs : (run plan (initial folders) good).isSome = true := by decide +kernel
  obtain ⟨w, hw⟩ := Option.isSome_iff_exists.mp hs
  rw [hw] at h
  simp only [Option.all_some, Bool.and_eq_true, decide_eq_true_eq] at h
  exact ⟨w, hw, h.1.1.1, h.1.1.2, h.1.2, h.2⟩

example : (folders ++ plan).Nodup := by decide

/-- **C131, limit.** When `squeue` fails, the script takes it for the end of the jobs: the runs are submitted while the folders are still being created. -/
theorem C131_queue_fails : ∃ w, run plan (initial folders) [.write, .accept 12, .unlink, .write, .accept 13, .unlink, .start 12, .next, .noListing, .noListing, .next,
      .write, .accept 14, .start 14] = some w ∧ w.jobs 12 = some (.folders 0, .running) ∧ w.jobs 14 = some (.run 0, .running) := by
  refine ⟨_, rfl, ?_, ?_⟩ <;> decide +kernel

/-- **C131, limit.** When another script in the same directory writes `temp.sbatch` in between, its work is submitted instead, and the script ends normally although one
of its own runs was never submitted. -/
theorem C131_file_shared : ∃ w, run [.run 0] (initial [.folders 0]) [.write, .accept 12, .unlink, .start 12, .stop 12 true, .next, .listing (queue []), .next,
      .write, .otherWrite (.run 7), .accept 14, .listing (queue [14]), .unlink, .next] = some w ∧ w.script = .finished ∧ w.jobs 14 = some (.run 7, .pending) ∧
    ∀ i st, w.jobs i ≠ some (.run 0, st) := by
  refine ⟨_, rfl, by decide +kernel, by decide +kernel, ?_⟩
  intro i st h
  by_cases h1 : i = 14
  · subst h1
    have : (run [.run 0] (initial [.folders 0]) [.write, .accept 12, .unlink, .start 12, .stop 12 true, .next, .listing (queue []), .next,
      .write, .otherWrite (.run 7), .accept 14, .listing (queue [14]), .unlink, .next]).bind (fun w => w.jobs 14) = some (.run 7, .pending) := by decide +kernel
    cases this.symm.trans h
  · by_cases h2 : i = 12
    · subst h2
      have : (run [.run 0] (initial [.folders 0]) [.write, .accept 12, .unlink, .start 12, .stop 12 true, .next, .listing (queue []), .next,
        .write, .otherWrite (.run 7), .accept 14, .listing (queue [14]), .unlink, .next]).bind (fun w => w.jobs 12) = some (.folders 0, .ended true) := by decide +kernel
      cases this.symm.trans h
    · have hj : Function.update (Function.update (Function.update (Function.update (fun _ : Nat => (none : Option (Work Nat × Status))) 12 (some (.folders 0, .pending)))
          12 (some (.folders 0, .running))) 12 (some (.folders 0, .ended true))) 14 (some (.run 7, .pending)) i = some (.run 0, st) := h
      rw [Function.update_of_ne h1, Function.update_of_ne h2, Function.update_of_ne h2, Function.update_of_ne h2] at hj
      cases hj

/-- The job 12 has ended, but a job 123 of somebody else is in the queue: the hypotheses of `C131_waits` are met. -/
example : num 12 <:+: queue [123] ∧ ∃ w, run [] (initial [.folders (0 : Nat)]) [.write, .accept 12, .unlink, .start 12, .stop 12 true, .next, .listing (queue [123]), .next] =
    some w ∧ w.script = .poll [12] [12] false := by
  refine ⟨by decide +kernel, _, rfl, by decide +kernel⟩

/-- The hypotheses of the theorems on the lists of work: two folds, two versions, two iterations. -/
example : let e : Model.Cluster.Experiment := ⟨[15, 19], [("domain_file_name", "d".toList)]⟩
    (∀ v ∈ e.versions, v ∈ [15, 19, 24]) ∧ e.versions.Nodup ∧ [1, 10].Nodup ∧ (numericPlan [15, 19, 24] e [1, 10] 2).length = 8 ∧ (multiPlan e [1, 10] 2).length = 12 := by
  decide +kernel

end Submission.Case
end Props
