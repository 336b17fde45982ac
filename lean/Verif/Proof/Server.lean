import Verif.Spec.Server
import Verif.Props.SharedInterners
import Verif.Props.VecLive

/-! # Proofs about the example server -/

namespace Measured.Server
open Measured.Conc Measured.Spec

/-! ## The events of one vector -/

theorem onVecs_append (a b : List Event) : onVecs (a ++ b) = onVecs a ++ onVecs b := by
  induction a with
  | nil => rfl
  | cons e a ih => cases e <;> simp [onVecs, ih]

theorem mem_onVecs {i : Vec} {e : LVEvent Lab i.Call i.groups.n} {tr : List Event} : ⟨i, e⟩ ∈ onVecs tr ↔ .on i e ∈ tr := by
  induction tr with
  | nil => simp [onVecs]
  | cons f tr ih =>
    cases f <;> simp only [onVecs, List.mem_cons, ih, reduceCtorEq, false_or]
    constructor
    · rintro (h | h)
      · cases h; exact .inl rfl
      · exact .inr h
    · rintro (h | h)
      · cases h; exact .inl rfl
      · exact .inr h

/-- The events of the map of a vector. -/
def mapEvents (i : Vec) (tr : List Event) : List (SEvent Key i.Call) := vecEvents (onVector i (onVecs tr))

theorem mapEvents_append (i : Vec) (a b : List Event) : mapEvents i (a ++ b) = mapEvents i a ++ mapEvents i b := by
  simp only [mapEvents, onVecs_append, onVector_append, vecEvents_append]

/-- The updates that thread `x` made. -/
def updatesBy {U : Type} (x : Tid) : List (SEvent Key U) → List (Key × U)
  | [] => []
  | .update y k u :: tr => if y = x then (k, u) :: updatesBy x tr else updatesBy x tr
  | _ :: tr => updatesBy x tr

theorem updatesBy_append {U : Type} (x : Tid) (a b : List (SEvent Key U)) :
    updatesBy x (a ++ b) = updatesBy x a ++ updatesBy x b := by
  induction a with
  | nil => rfl
  | cons e a ih =>
    cases e <;> simp only [List.cons_append, updatesBy, ih]
    split <;> simp

/-! ## One request -/

namespace Pc

/-- The status of the response. -/
def status : Pc → Option Nat
  | .durGet _ _ st | .durObserve _ _ st | .durDrop _ _ st | .last _ st | .done _ st => st
  | .resLabel _ st | .resGet _ st _ | .resInc _ st _ | .resDrop _ st _ => some st
  | .dead p => p.status
  | _ => none

/-- The service inside is over. -/
def left : Pc → Bool
  | .durGet _ _ _ | .durObserve _ _ _ | .durDrop _ _ _ | .resLabel _ _ | .resGet _ _ _ | .resInc _ _ _ | .resDrop _ _ _
  | .last _ _ | .done _ _ => true
  | .dead p => p.left
  | _ => false

/-- The service inside was entered. -/
def entered : Pc → Bool
  | .inside _ _ => true
  | p => p.left

/-- The request has been counted in the vector. -/
def did : Vec → Pc → Bool
  | .requests, .reqDrop _ _ | .requests, .timerLabel _ | .requests, .timed _ _ | .requests, .inside _ _ => true
  | .duration, .durDrop _ _ _ | .duration, .resLabel _ _ | .duration, .resGet _ _ _ | .duration, .resInc _ _ _
  | .duration, .resDrop _ _ _ | .duration, .last _ _ | .duration, .done _ _ => true
  | .responses, .resDrop _ _ _ | .responses, .last _ (some _) | .responses, .done _ (some _) => true
  | i, .dead p => p.did i
  | .requests, p => p.left
  | _, _ => false

/-- The key that the request is going to use in the vector. -/
def key : Vec → Pc → Option Key
  | .requests, .reqGet _ k | .requests, .reqInc _ k => some k
  | .duration, .timed _ k | .duration, .inside _ k | .duration, .durGet _ k _ | .duration, .durObserve _ k _ => some k
  | .responses, .resGet _ _ k | .responses, .resInc _ _ k => some k
  | _, _ => none

/-- The label group of the request. -/
def group : (i : Vec) → Pc → Option i.groups.Group
  | .requests, p => p.req.map Req.group
  | .duration, p => p.req.map Req.group
  | .responses, p => p.req.bind fun r => p.status.map r.response

end Pc

/-- What is known about a request from where it is. -/
structure TaskInv (x : Tid) (tr : List Event) (p : Pc) : Prop where
  began : ∀ r, .begin x r ∈ tr ↔ p.req = some r
  entered : .enter x ∈ tr ↔ p.entered = true
  answered : ∀ st, .answer x st ∈ tr ↔ p.status = some st
  left : p.left = true → (∃ st, .answer x st ∈ tr) ∨ .abandon x ∈ tr
  finished : .finish x ∈ tr → ∃ r st, p = .done r st
  key : ∀ i k, p.key i = some k → ∃ g, p.group i = some g ∧ .on i (.lab (.encoded x g (some k))) ∈ tr
  didnt : ∀ i, p.did i = false → updatesBy x (mapEvents i tr) = []
  did : ∀ i, p.did i = true → ∃ k u g, updatesBy x (mapEvents i tr) = [(k, u)] ∧ p.group i = some g ∧
    .on i (.lab (.encoded x g (some k))) ∈ tr

theorem moves_of {t : Tid} {p p' : Pc} {e : Event} (h : Moves t p e p') : e.Of t := by
  cases h <;> first | rfl | (rename_i h; cases h <;> rfl)

theorem updatesBy_other {i : Vec} {x t : Tid} {e : Event} (h : e.Of t) (hx : x ≠ t) : updatesBy x (mapEvents i [e]) = [] := by
  cases e with
  | on j f =>
    by_cases hj : j = i
    · subst hj
      cases f with
      | lab f => simp [mapEvents, onVecs, onVector, vecEvents, updatesBy]
      | shown => simp [mapEvents, onVecs, onVector, vecEvents, updatesBy]
      | vec f =>
        simp only [mapEvents, onVecs, onVector, vecEvents, dite_true]
        cases f <;> simp only [updatesBy]
        rename_i y k u
        have : y = t := h
        subst this
        rw [if_neg (Ne.symm hx)]
    · simp [mapEvents, onVecs, onVector, hj, vecEvents, updatesBy]
  | _ => rfl

theorem taskInv_other {x t : Tid} {tr : List Event} {p : Pc} {e : Event} (h : TaskInv x tr p) (he : e.Of t) (hx : x ≠ t) :
    TaskInv x (tr ++ [e]) p := by
  have hb : ∀ r, .begin x r ≠ e := fun r heq => by subst heq; exact hx he
  have hn : .enter x ≠ e := fun heq => by subst heq; exact hx he
  have ha : ∀ st, .answer x st ≠ e := fun st heq => by subst heq; exact hx he
  have hf : .finish x ≠ e := fun heq => by subst heq; exact hx he
  refine ⟨fun r => ?_, ?_, fun st => ?_, fun hl => ?_, ?_, fun i k hk => ?_, fun i hi => ?_, fun i hi => ?_⟩
  · simp only [List.mem_append, List.mem_singleton, hb, or_false, h.began]
  · simp only [List.mem_append, List.mem_singleton, hn, or_false, h.entered]
  · simp only [List.mem_append, List.mem_singleton, ha, or_false, h.answered]
  · rcases h.left hl with ⟨st, hs⟩ | hs
    · exact .inl ⟨st, List.mem_append_left _ hs⟩
    · exact .inr (List.mem_append_left _ hs)
  · simp only [List.mem_append, List.mem_singleton, hf, or_false]
    exact h.finished
  · obtain ⟨g, h1, h2⟩ := h.key i k hk
    exact ⟨g, h1, List.mem_append_left _ h2⟩
  · rw [mapEvents_append, updatesBy_append, h.didnt i hi, updatesBy_other he hx]
    rfl
  · obtain ⟨k, u, g, h1, h2, h3⟩ := h.did i hi
    refine ⟨k, u, g, ?_, h2, List.mem_append_left _ h3⟩
    rw [mapEvents_append, updatesBy_append, h1, updatesBy_other he hx]
    rfl

/-- A step that changes nothing that matters. -/
theorem taskInv_quiet {x : Tid} {tr : List Event} {p p' : Pc} {e : Event} (h : TaskInv x tr p)
    (hb : ∀ r, .begin x r ≠ e) (hn : .enter x ≠ e) (ha : ∀ st, .answer x st ≠ e) (hf : .finish x ≠ e)
    (hu : ∀ i, updatesBy x (mapEvents i [e]) = []) (h1 : p'.req = p.req) (h2 : p'.status = p.status) (h3 : p'.left = p.left)
    (h4 : p'.entered = p.entered) (h5 : ∀ r st, p ≠ .done r st) (h6 : ∀ i, p'.did i = p.did i)
    (h7 : ∀ i k, p'.key i = some k → p.key i = some k ∨
      ∃ g, p.group i = some g ∧ .on i (.lab (.encoded x g (some k))) = e) : TaskInv x (tr ++ [e]) p' := by
  have hg : ∀ i, p'.group i = p.group i := fun i => by cases i <;> simp only [Pc.group, h1, h2]
  refine ⟨fun r => ?_, ?_, fun st => ?_, fun hl => ?_, ?_, fun i k hk => ?_, fun i hi => ?_, fun i hi => ?_⟩
  · simp only [List.mem_append, List.mem_singleton, hb, or_false, h.began, h1]
  · simp only [List.mem_append, List.mem_singleton, hn, or_false, h.entered, h4]
  · simp only [List.mem_append, List.mem_singleton, ha, or_false, h.answered, h2]
  · rcases h.left (by rw [← h3]; exact hl) with ⟨st, hs⟩ | hs
    · exact .inl ⟨st, List.mem_append_left _ hs⟩
    · exact .inr (List.mem_append_left _ hs)
  · simp only [List.mem_append, List.mem_singleton, hf, or_false]
    intro hm
    obtain ⟨r, st, e⟩ := h.finished hm
    exact absurd e (h5 r st)
  · rcases h7 i k hk with hk | ⟨g, hk, rfl⟩
    · obtain ⟨g, a1, a2⟩ := h.key i k hk
      exact ⟨g, by rw [hg]; exact a1, List.mem_append_left _ a2⟩
    · exact ⟨g, by rw [hg]; exact hk, List.mem_append_right _ (List.mem_singleton.2 rfl)⟩
  · rw [mapEvents_append, updatesBy_append, h.didnt i (by rw [← h6]; exact hi), hu]
    rfl
  · obtain ⟨k, u, g, a1, a2, a3⟩ := h.did i (by rw [← h6]; exact hi)
    refine ⟨k, u, g, ?_, by rw [hg]; exact a2, List.mem_append_left _ a3⟩
    rw [mapEvents_append, updatesBy_append, a1, hu]
    rfl

/-- The metric is updated. -/
theorem taskInv_update {x : Tid} {tr : List Event} {p p' : Pc} {j : Vec} {k : Key} {u : j.Call} (h : TaskInv x tr p)
    (h1 : p'.req = p.req) (h2 : p'.status = p.status) (h3 : p'.left = p.left)
    (h4 : p'.entered = p.entered) (h5 : ∀ r st, p ≠ .done r st) (h6 : ∀ i, i ≠ j → p'.did i = p.did i)
    (h6' : p.did j = false) (h6'' : p'.did j = true) (hk : p.key j = some k) (h7 : ∀ i, p'.key i = none) :
    TaskInv x (tr ++ [.on j (.vec (.update x k u))]) p' := by
  have hg : ∀ i, p'.group i = p.group i := fun i => by cases i <;> simp only [Pc.group, h1, h2]
  have hself : updatesBy x (mapEvents j [.on j (.vec (.update x k u))]) = [(k, u)] := by
    simp [mapEvents, onVecs, onVector, vecEvents, updatesBy]
  have hother : ∀ i, i ≠ j → updatesBy x (mapEvents i [.on j (.vec (.update x k u))]) = [] := fun i hi => by
    simp [mapEvents, onVecs, onVector, vecEvents, updatesBy, Ne.symm hi]
  refine ⟨fun r => ?_, ?_, fun st => ?_, fun hl => ?_, ?_, fun i k hk => ?_, fun i hi => ?_, fun i hi => ?_⟩
  · simp [h.began, h1]
  · simp [h.entered, h4]
  · simp [h.answered, h2]
  · rcases h.left (by rw [← h3]; exact hl) with ⟨st, hs⟩ | hs
    · exact .inl ⟨st, List.mem_append_left _ hs⟩
    · exact .inr (List.mem_append_left _ hs)
  · intro hm
    obtain ⟨r, st, e⟩ := h.finished (by simpa using hm)
    exact absurd e (h5 r st)
  · rw [h7] at hk; cases hk
  · by_cases hij : i = j
    · subst hij; rw [h6''] at hi; cases hi
    · rw [mapEvents_append, updatesBy_append, h.didnt i (by rw [← h6 i hij]; exact hi), hother i hij]
      rfl
  · by_cases hij : i = j
    · subst hij
      obtain ⟨g, a1, a2⟩ := h.key i k hk
      refine ⟨k, u, g, ?_, by rw [hg]; exact a1, List.mem_append_left _ a2⟩
      rw [mapEvents_append, updatesBy_append, h.didnt i h6', hself]
      rfl
    · obtain ⟨k, u, g, a1, a2, a3⟩ := h.did i (by rw [← h6 i hij]; exact hi)
      refine ⟨k, u, g, ?_, by rw [hg]; exact a2, List.mem_append_left _ a3⟩
      rw [mapEvents_append, updatesBy_append, a1, hother i hij]
      rfl

theorem updatesBy_quiet {i j : Vec} {x : Tid} {e : LVEvent Lab j.Call j.groups.n} (h : ∀ k u, e ≠ .vec (.update x k u)) :
    updatesBy x (mapEvents i [.on j e]) = [] := by
  by_cases hj : j = i
  · subst hj
    cases e with
    | lab f => simp [mapEvents, onVecs, onVector, vecEvents, updatesBy]
    | shown => simp [mapEvents, onVecs, onVector, vecEvents, updatesBy]
    | vec f =>
      simp only [mapEvents, onVecs, onVector, vecEvents, dite_true]
      cases f <;> simp only [updatesBy]
      rename_i y k u
      by_cases hy : y = x
      · subst hy; exact absurd rfl (h k u)
      · rw [if_neg hy]
  · simp [mapEvents, onVecs, onVector, hj, vecEvents, updatesBy]

theorem taskInv_own {x : Tid} {tr : List Event} {p p' : Pc} {e : Event} (h : TaskInv x tr p) (hm : Moves x p e p') :
    TaskInv x (tr ++ [e]) p' := by
  cases hm with
  | begin r =>
    have hu : ∀ i, updatesBy x (mapEvents i [.begin x r]) = [] := fun _ => rfl
    refine ⟨fun r' => ?_, ?_, fun st => ?_, fun hl => ?_, ?_, fun i k hk => ?_, fun i hi => ?_, fun i hi => ?_⟩
    · simp [h.began, Pc.req, eq_comm]
    · simp [h.entered, Pc.entered, Pc.left]
    · simp [h.answered, Pc.status]
    · cases hl
    · intro hm
      obtain ⟨r', st, e⟩ := h.finished (by simpa using hm)
      cases e
    · cases i <;> cases hk
    · rw [mapEvents_append, updatesBy_append, h.didnt i (by cases i <;> rfl), hu]; rfl
    · cases i <;> cases hi
  | enter r k =>
    have hu : ∀ i, updatesBy x (mapEvents i [.enter x]) = [] := fun _ => rfl
    refine ⟨fun r' => ?_, ?_, fun st => ?_, fun hl => ?_, ?_, fun i k hk => ?_, fun i hi => ?_, fun i hi => ?_⟩
    · simp [h.began, Pc.req]
    · simp [Pc.entered]
    · simp [h.answered, Pc.status]
    · cases hl
    · intro hm
      obtain ⟨r', st, e⟩ := h.finished (by simpa using hm)
      cases e
    · obtain ⟨g, a1, a2⟩ := h.key i k (by cases i <;> first | exact hk | cases hk)
      exact ⟨g, (by cases i <;> first | exact a1 | cases hk), List.mem_append_left _ a2⟩
    · rw [mapEvents_append, updatesBy_append, h.didnt i (by cases i <;> first | rfl | cases hi), hu]; rfl
    · obtain ⟨k, u, g, a1, a2, a3⟩ := h.did i (by cases i <;> first | rfl | cases hi)
      exact ⟨k, u, g, by rw [mapEvents_append, updatesBy_append, a1, hu]; rfl, (by cases i <;> first | exact a2 | cases hi),
        List.mem_append_left _ a3⟩
  | answer r k st hst =>
    have hu : ∀ i, updatesBy x (mapEvents i [.answer x st]) = [] := fun _ => rfl
    refine ⟨fun r' => ?_, ?_, fun st' => ?_, fun hl => ?_, ?_, fun i k hk => ?_, fun i hi => ?_, fun i hi => ?_⟩
    · simp [h.began, Pc.req]
    · simp [h.entered, Pc.entered, Pc.left]
    · simp [h.answered, Pc.status, eq_comm]
    · exact .inl ⟨st, by simp⟩
    · intro hm
      obtain ⟨r', st, e⟩ := h.finished (by simpa using hm)
      cases e
    · obtain ⟨g, a1, a2⟩ := h.key i k (by cases i <;> first | exact hk | cases hk)
      exact ⟨g, (by cases i <;> first | exact a1 | cases hk), List.mem_append_left _ a2⟩
    · rw [mapEvents_append, updatesBy_append, h.didnt i (by cases i <;> first | rfl | cases hi), hu]; rfl
    · obtain ⟨k, u, g, a1, a2, a3⟩ := h.did i (by cases i <;> first | rfl | cases hi)
      exact ⟨k, u, g, by rw [mapEvents_append, updatesBy_append, a1, hu]; rfl, (by cases i <;> first | exact a2 | cases hi),
        List.mem_append_left _ a3⟩
  | abandon r k =>
    have hu : ∀ i, updatesBy x (mapEvents i [.abandon x]) = [] := fun _ => rfl
    refine ⟨fun r' => ?_, ?_, fun st' => ?_, fun hl => ?_, ?_, fun i k hk => ?_, fun i hi => ?_, fun i hi => ?_⟩
    · simp [h.began, Pc.req]
    · simp [h.entered, Pc.entered, Pc.left]
    · simp [h.answered, Pc.status]
    · exact .inr (by simp)
    · intro hm
      obtain ⟨r', st, e⟩ := h.finished (by simpa using hm)
      cases e
    · obtain ⟨g, a1, a2⟩ := h.key i k (by cases i <;> first | exact hk | cases hk)
      exact ⟨g, (by cases i <;> first | exact a1 | cases hk), List.mem_append_left _ a2⟩
    · rw [mapEvents_append, updatesBy_append, h.didnt i (by cases i <;> first | rfl | cases hi), hu]; rfl
    · obtain ⟨k, u, g, a1, a2, a3⟩ := h.did i (by cases i <;> first | rfl | cases hi)
      exact ⟨k, u, g, by rw [mapEvents_append, updatesBy_append, a1, hu]; rfl, (by cases i <;> first | exact a2 | cases hi),
        List.mem_append_left _ a3⟩
  | finish r st =>
    have hu : ∀ i, updatesBy x (mapEvents i [.finish x]) = [] := fun _ => rfl
    refine ⟨fun r' => ?_, ?_, fun st' => ?_, fun hl => ?_, fun _ => ⟨r, st, rfl⟩, fun i k hk => ?_, fun i hi => ?_, fun i hi => ?_⟩
    · simp [h.began, Pc.req]
    · simp [h.entered, Pc.entered, Pc.left]
    · simp [h.answered, Pc.status]
    · rcases h.left rfl with ⟨st, hs⟩ | hs
      · exact .inl ⟨st, List.mem_append_left _ hs⟩
      · exact .inr (List.mem_append_left _ hs)
    · cases i <;> cases hk
    · rw [mapEvents_append, updatesBy_append, h.didnt i (by cases i <;> cases st <;> first | rfl | cases hi), hu]; rfl
    · obtain ⟨k, u, g, a1, a2, a3⟩ := h.did i (by cases i <;> cases st <;> first | rfl | cases hi)
      exact ⟨k, u, g, by rw [mapEvents_append, updatesBy_append, a1, hu]; rfl, by cases i <;> exact a2,
        List.mem_append_left _ a3⟩
  | reqInc r k =>
    exact taskInv_update h rfl rfl rfl rfl (fun _ _ => nofun) (fun i hi => by cases i <;> first | rfl | exact absurd rfl hi) rfl
      rfl rfl fun i => by cases i <;> rfl
  | durObserve r k st d _ =>
    exact taskInv_update h rfl rfl rfl rfl (fun _ _ => nofun) (fun i hi => by cases i <;> first | rfl | exact absurd rfl hi) rfl
      rfl rfl fun i => by cases i <;> rfl
  | resInc r st k =>
    exact taskInv_update h rfl rfl rfl rfl (fun _ _ => nofun) (fun i hi => by cases i <;> first | rfl | exact absurd rfl hi) rfl
      rfl rfl fun i => by cases i <;> rfl
  | reqLabelled r k =>
    refine taskInv_quiet h (by simp) (by simp) (by simp) (by simp) (fun i => updatesBy_quiet (by simp)) rfl rfl rfl rfl
      (fun _ _ => nofun) (fun i => by cases i <;> rfl) fun i k' hk => ?_
    cases i <;> cases hk
    exact .inr ⟨_, rfl, rfl⟩
  | timerLabelled r k =>
    refine taskInv_quiet h (by simp) (by simp) (by simp) (by simp) (fun i => updatesBy_quiet (by simp)) rfl rfl rfl rfl
      (fun _ _ => nofun) (fun i => by cases i <;> rfl) fun i k' hk => ?_
    cases i <;> cases hk
    exact .inr ⟨_, rfl, rfl⟩
  | resLabelled r st k =>
    refine taskInv_quiet h (by simp) (by simp) (by simp) (by simp) (fun i => updatesBy_quiet (by simp)) rfl rfl rfl rfl
      (fun _ _ => nofun) (fun i => by cases i <;> rfl) fun i k' hk => ?_
    cases i <;> cases hk
    exact .inr ⟨_, rfl, rfl⟩
  | _ =>
    refine taskInv_quiet h (by simp) (by simp) (by simp) (by simp)
      (fun i => updatesBy_quiet (by
        first
          | (simp; done)
          | (intro k u hu; subst hu; rename_i hq; cases hq))) rfl rfl rfl rfl
      (fun _ _ => nofun) (fun i => by cases i <;> rfl) fun i k' hk => ?_
    exact .inl (by cases i <;> first | exact hk | cases hk)

/-- Every request is as it should be at all times. -/
theorem taskInv {m : Mode} {c : Vec → ShardConf Key} {cap : Nat} {tr : List Event} {s : Sys}
    (h : Exec (Step m c) (.new cap) tr s) (x : Tid) : TaskInv x tr (s.pc x) := by
  induction h with
  | nil =>
    refine ⟨by simp [Sys.new, Pc.req], by simp [Sys.new, Pc.entered, Pc.left], by simp [Sys.new, Pc.status], nofun, by simp,
      fun i k hk => ?_, fun _ _ => rfl, fun i hi => ?_⟩
    · cases i <;> cases hk
    · cases i <;> cases hi
  | @snoc tr s e s' he hs ih =>
    have key : ∀ t p, Moves t (s.pc t) e p → TaskInv x (tr ++ [e]) (Function.update s.pc t p x) := fun t p hm => by
      by_cases hx : x = t
      · subst hx
        rw [Function.update_self]
        exact taskInv_own ih hm
      · rw [Function.update_of_ne hx]
        exact taskInv_other ih (moves_of hm) hx
    cases hs with
    | on _ hm => exact key _ _ hm
    | own _ hm => exact key _ _ hm

/-! ## The vectors -/

theorem to_shared {m : Mode} {c : Vec → ShardConf Key} {cap : Nat} {tr : List Event} {s : Sys}
    (h : Exec (Step m c) (.new cap) tr s) :
    Exec (SharedStep m threadedRodeo c) (SharedSys.new fun _ => (⟨[], cap⟩ : Rodeo Lab)) (onVecs tr) s.vecs := by
  induction h with
  | nil => exact .nil
  | @snoc tr s e s' he hs ih =>
    rw [onVecs_append]
    cases hs with
    | on hl _ => exact .snoc ih (.on _ _ _ _ hl)
    | own hn _ =>
      have : onVecs [e] = [] := by
        cases e with
        | on i f => exact absurd rfl (hn i f)
        | _ => rfl
      rw [this, List.append_nil]
      exact ih

theorem vecEvents_visible {V U : Type} {n : Nat} (l : List (LVEvent V U n)) : vecEvents (visible l) = vecEvents l := by
  induction l with
  | nil => rfl
  | cons e l ih =>
    cases e with
    | lab e => cases e <;> simp [visible, vecEvents, ih]
    | vec e => simp [visible, vecEvents, ih]
    | shown => simp [visible, vecEvents, ih]

theorem to_map {m : Mode} {c : Vec → ShardConf Key} {cap : Nat} {tr : List Event} {s : Sys}
    (h : Exec (Step m c) (.new cap) tr s) (i : Vec) :
    Exec (SStep (c i)) SSys.new (mapEvents i tr) (s.vecs.own i).vec := by
  obtain ⟨tr', h1, h2⟩ := C75_shared (to_shared h) i
  have := (lv_project h1).2.1
  rw [← vecEvents_visible, h2, vecEvents_visible] at this
  exact this

theorem mapEvents_cons (i : Vec) (e : Event) (tr : List Event) : mapEvents i (e :: tr) = mapEvents i [e] ++ mapEvents i tr :=
  mapEvents_append i [e] tr

theorem mapEvents_one (i : Vec) (e : Event) : (mapEvents i [e]).length ≤ 1 := by
  cases e with
  | on j f =>
    by_cases hj : j = i
    · subst hj; cases f <;> simp [mapEvents, onVecs, onVector, vecEvents]
    · simp [mapEvents, onVecs, onVector, hj, vecEvents]
  | _ => simp [mapEvents, onVecs, onVector, vecEvents]

/-- A moment of the map is a moment of the server. -/
theorem mapEvents_prefix {i : Vec} {B : List Event} {p : List (SEvent Key i.Call)} (h : p <+: mapEvents i B) :
    ∃ B', B' <+: B ∧ mapEvents i B' = p := by
  induction B generalizing p with
  | nil => exact ⟨[], List.nil_prefix, (List.prefix_nil.1 h).symm⟩
  | cons e B ih =>
    rw [mapEvents_cons] at h
    have h1 := mapEvents_one i e
    match p, h with
    | [], _ => exact ⟨[], List.nil_prefix, rfl⟩
    | f :: p, h =>
      match hm : mapEvents i [e], h1 with
      | [], _ =>
        rw [hm] at h
        obtain ⟨B', a, b⟩ := ih h
        exact ⟨e :: B', List.cons_prefix_cons.2 ⟨rfl, a⟩, by rw [mapEvents_cons, hm, b]; rfl⟩
      | [f'], _ =>
        rw [hm] at h
        obtain ⟨rfl, hp⟩ := List.cons_prefix_cons.1 h
        obtain ⟨B', a, b⟩ := ih hp
        exact ⟨e :: B', List.cons_prefix_cons.2 ⟨rfl, a⟩, by rw [mapEvents_cons, hm, b]; rfl⟩

theorem mem_mapEvents {i : Vec} {tr : List Event} {e : SEvent Key i.Call} (he : ∀ t k us, e ≠ .emit t k us) :
    e ∈ mapEvents i tr ↔ .on i (.vec e) ∈ tr := by
  rw [mapEvents, mem_vecEvents he, mem_onVector, mem_onVecs]

/-- Nobody removes anything. -/
theorem no_remove {m : Mode} {c : Vec → ShardConf Key} {cap : Nat} {tr : List Event} {s : Sys}
    (h : Exec (Step m c) (.new cap) tr s) (i : Vec) (v : Tid) (k : Key) (r : Option (List i.Call)) :
    .remove v k r ∉ mapEvents i tr := by
  rw [mem_mapEvents (by simp)]
  induction h with
  | nil => simp
  | @snoc tr s e s' he hs ih =>
    intro hm
    rcases List.mem_append.1 hm with hm | hm
    · exact ih hm
    · rw [List.mem_singleton] at hm
      subst hm
      cases hs with
      | @on t _ _ _ _ _ hm =>
        generalize s.pc t = q at hm
        cases hm <;> (rename_i hq; cases hq)
      | own hn _ => exact hn _ _ rfl

theorem removedOf_nil {U : Type} {k : Key} {l : List (SEvent Key U)} (h : ∀ v r, .remove v k r ∉ l) : removedOf k l = [] := by
  induction l with
  | nil => rfl
  | cons e l ih =>
    have ih := ih fun v r hm => h v r (List.mem_cons_of_mem _ hm)
    cases e with
    | remove t k' r =>
      cases r with
      | none => exact ih
      | some us =>
        simp only [removedOf]
        split
        · rename_i hk; subst hk; exact absurd (List.mem_cons_self ..) (h _ _)
        · exact ih
    | _ => exact ih

/-- A metric has all the updates that were made to it. -/
theorem map_updates {m : Mode} {c : Vec → ShardConf Key} {cap : Nat} {tr : List Event} {s : Sys}
    (h : Exec (Step m c) (.new cap) tr s) {i : Vec} {k : Key} {us : List i.Call} (hk : mapOf (mapEvents i tr) k = some us) :
    us = updatesOf k (mapEvents i tr) := by
  have hm := to_map h i
  rw [C23_updates hm k, removedOf_nil fun v r => no_remove h i v k r, (s_inv hm).abs, hk]
  rfl

/-- Who updated the key. -/
def updaters {U : Type} (k : Key) : List (SEvent Key U) → List Tid
  | [] => []
  | .update y k' _ :: tr => if k' = k then y :: updaters k tr else updaters k tr
  | _ :: tr => updaters k tr

theorem length_updaters {U : Type} (k : Key) (l : List (SEvent Key U)) : (updaters k l).length = (updatesOf k l).length := by
  induction l with
  | nil => rfl
  | cons e l ih =>
    cases e <;> simp only [updaters, updatesOf, ih]
    split <;> simp [ih]

theorem count_updaters {U : Type} (k : Key) (x : Tid) (l : List (SEvent Key U)) :
    (updaters k l).count x ≤ (updatesBy x l).length := by
  induction l with
  | nil => simp [updaters]
  | cons e l ih =>
    cases e <;> simp only [updaters, updatesBy] <;> try exact ih
    rename_i y k' u
    by_cases hk : k' = k <;> by_cases hy : y = x
    · simp [hk, hy, ih]
    · simp [hk, hy, ih]
    · simp only [hk, hy, if_true, if_false, List.length_cons]; omega
    · simp [hk, hy, ih]

theorem mem_updaters {U : Type} {k : Key} {x : Tid} {l : List (SEvent Key U)} :
    x ∈ updaters k l ↔ ∃ u, (k, u) ∈ updatesBy x l := by
  induction l with
  | nil => simp [updaters, updatesBy]
  | cons e l ih =>
    cases e <;> simp only [updaters, updatesBy] <;> try exact ih
    rename_i y k' u
    by_cases hk : k' = k <;> by_cases hy : y = x
    · simp [hk, hy]
    · simp [hk, hy, ih, Ne.symm hy]
    · simp [hk, hy, ih, Ne.symm hk]
    · simp [hk, hy, ih]

theorem updaters_append {U : Type} (k : Key) (a b : List (SEvent Key U)) : updaters k (a ++ b) = updaters k a ++ updaters k b := by
  induction a with
  | nil => rfl
  | cons e a ih =>
    cases e <;> simp only [List.cons_append, updaters, ih]
    split <;> simp

/-! ## What is counted -/

theorem did_of_entered : ∀ {p : Pc}, p.entered = true → p.did .requests = true := by
  intro p
  induction p with
  | dead p ih =>
    intro h
    refine ih ?_
    cases p <;> first | rfl | exact h
  | last r st => intro _; rfl
  | done r st => intro _; rfl
  | _ => first | (intro h; cases h; done) | (intro _; rfl)

theorem left_of_did : ∀ {p : Pc}, p.did .duration = true → p.left = true := by
  intro p
  induction p with
  | dead p ih => exact ih
  | _ => first | (intro h; cases h; done) | (intro _; rfl)

/-- Who must be counted has been counted. -/
theorem sure_did {x : Tid} {tr : List Event} {p : Pc} (h : TaskInv x tr p) {i : Vec} {g : i.groups.Group}
    (hs : SureIn i g tr x) : p.did i = true ∧ p.group i = some g := by
  cases i with
  | requests =>
    obtain ⟨r, rfl, hb, he⟩ := hs
    exact ⟨did_of_entered (h.entered.1 he), by rw [Pc.group, (h.began r).1 hb]; rfl⟩
  | duration =>
    obtain ⟨r, rfl, hb, hf⟩ := hs
    obtain ⟨r', st, rfl⟩ := h.finished hf
    exact ⟨rfl, by rw [Pc.group, (h.began r).1 hb]; rfl⟩
  | responses =>
    obtain ⟨r, st, rfl, hb, ha, hf⟩ := hs
    obtain ⟨r', st', rfl⟩ := h.finished hf
    have h1 := (h.began r).1 hb
    have h2 := (h.answered st).1 ha
    cases h1
    have : st' = some st := h2
    subst this
    exact ⟨rfl, rfl⟩

/-- Who has been counted may be counted. -/
theorem did_may {x : Tid} {tr : List Event} {p : Pc} (h : TaskInv x tr p) {i : Vec} {g : i.groups.Group}
    (hd : p.did i = true) (hg : p.group i = some g) : MayIn i g tr x := by
  cases i with
  | requests =>
    simp only [Pc.group, Option.map_eq_some_iff] at hg
    obtain ⟨r, h1, h2⟩ := hg
    exact ⟨r, h2, (h.began r).2 h1⟩
  | duration =>
    simp only [Pc.group, Option.map_eq_some_iff] at hg
    obtain ⟨r, h1, h2⟩ := hg
    exact ⟨r, h2, (h.began r).2 h1, h.left (left_of_did hd)⟩
  | responses =>
    simp only [Pc.group, Option.bind_eq_some_iff, Option.map_eq_some_iff] at hg
    obtain ⟨r, h1, st, h2, h3⟩ := hg
    exact ⟨r, st, h3, (h.began r).2 h1, (h.answered st).2 h2⟩

theorem mayIn_mono {i : Vec} {g : i.groups.Group} {a b : List Event} {x : Tid}
    (hab : ∀ e ∈ a, (∀ i f, e ≠ .on i f) → e ∈ b) (h : MayIn i g a x) : MayIn i g b x := by
  cases i with
  | requests => obtain ⟨r, h1, h2⟩ := h; exact ⟨r, h1, hab _ h2 (by simp)⟩
  | responses => obtain ⟨r, st, h1, h2, h3⟩ := h; exact ⟨r, st, h1, hab _ h2 (by simp), hab _ h3 (by simp)⟩
  | duration =>
    obtain ⟨r, h1, h2, h3⟩ := h
    exact ⟨r, h1, hab _ h2 (by simp), h3.imp (fun ⟨st, h⟩ => ⟨st, hab _ h (by simp)⟩) fun h => hab _ h (by simp)⟩

/-- `HeapInv` for the new interner. -/
theorem heap_new (cap : Nat) : HeapInv (fun s : Rodeo Lab => s.items.Nodup) fun _ => (⟨[], cap⟩ : Rodeo Lab) :=
  fun _ => List.nodup_nil

theorem methods_laws : FixedSetLaws methods := by
  rw [methods, staticLabelSet_eq]
  exact indexSet_laws _ (by decide)

theorem statuses_laws : FixedSetLaws statuses where
  enc_dec v i h := by
    cases v with
    | status c =>
      simp only [statuses] at h ⊢
      split at h
      · rename_i hc
        cases h
        refine ⟨by omega, ?_⟩
        rw [if_pos (by omega), Nat.mod_eq_of_lt (by omega), show c - 100 + 100 = c by omega, fromU16, if_pos hc]
        rfl
      · cases h
    | _ => cases h
  dec_enc i h := by
    have h : i < 900 := h
    refine ⟨.status (i + 100), ?_, ?_⟩
    · simp only [statuses]
      rw [if_pos (by omega), Nat.mod_eq_of_lt (by omega), fromU16, if_pos (by omega)]
      rfl
    · simp only [statuses]
      rw [if_pos (by omega)]
      simp

theorem groups_lawful (i : Vec) : FieldsLawful FixedSetLaws i.groups := by
  have h1 : FieldsLawful FixedSetLaws requestsDef := by
    suffices ∀ i : Fin 2, ∀ s, (requestsDef.field i).kind = .fixed s → FixedSetLaws s from this
    intro i s h
    match i with
    | 0 => cases h
    | 1 => cases h; exact methods_laws
  have h2 : FieldsLawful FixedSetLaws responsesDef := by
    suffices ∀ i : Fin 3, ∀ s, (responsesDef.field i).kind = .fixed s → FixedSetLaws s from this
    intro i s h
    match i with
    | 0 => cases h
    | 1 => cases h; exact methods_laws
    | 2 => cases h; exact statuses_laws
  cases i <;> assumption

theorem groups_fit (i : Vec) : Spec.Fits i.groups := by
  cases i <;> exact fits_of_pos (by decide) (by decide)

theorem agree {m : Mode} {c : Vec → ShardConf Key} {cap : Nat} {tr : List Event} {s : Sys}
    (h : Exec (Step m c) (.new cap) tr s) {i : Vec} {t t' : Tid} {g g' : i.groups.Group} {k k' : Key}
    (h1 : .on i (.lab (.encoded t g (some k))) ∈ tr) (h2 : .on i (.lab (.encoded t' g' (some k'))) ∈ tr) :
    k = k' ↔ g = g' :=
  (C66_shared m m threadedRodeo_laws groups_lawful groups_fit c _ (heap_new cap) (to_shared h) i).1 t t' g g' k k'
    (mem_onVecs.2 h1) (mem_onVecs.2 h2)

/-- At every moment of a pass, a metric has as many updates as there are requests of its group. -/
theorem count_between {m : Mode} {c : Vec → ShardConf Key} {cap : Nat} {A B R : List Event} {s : Sys} {i : Vec} {t : Tid}
    (h : Exec (Step m c) (.new cap) (A ++ .on i (.vec (.startPass t)) :: B ++ R) s) {p : List (SEvent Key i.Call)}
    (hp : p <+: mapEvents i B) {k : Key} {us : List i.Call} (hk : mapOf (mapEvents i A ++ .startPass t :: p) k = some us)
    {g : i.groups.Group} {y : Tid} (hg : .on i (.lab (.encoded y g (some k))) ∈ A ++ .on i (.vec (.startPass t)) :: B) :
    CountBetween (SureIn i g A) (MayIn i g (A ++ B)) us.length := by
  obtain ⟨B', hB, rfl⟩ := mapEvents_prefix hp
  obtain ⟨B'', rfl⟩ := hB
  obtain ⟨s₁, h1, _⟩ := exec_split _ R h
  rw [show A ++ .on i (.vec (.startPass t)) :: (B' ++ B'') = (A ++ .on i (.vec (.startPass t)) :: B') ++ B'' by simp] at h1 hg
  obtain ⟨s₂, h2, _⟩ := exec_split _ B'' h1
  obtain ⟨s₃, h3, _⟩ := exec_split A _ h2
  have hev : mapEvents i (A ++ .on i (.vec (.startPass t)) :: B') = mapEvents i A ++ .startPass t :: mapEvents i B' := by
    rw [mapEvents_append, mapEvents_cons]
    simp [mapEvents, onVecs, onVector, vecEvents]
  rw [← hev] at hk
  have hus := map_updates h2 hk
  refine ⟨updaters k (mapEvents i (A ++ .on i (.vec (.startPass t)) :: B')), ?_, by rw [length_updaters, ← hus], fun x hx => ?_,
    fun x hx => ?_⟩
  · rw [List.nodup_iff_count_le_one]
    intro x
    refine Nat.le_trans (count_updaters k x _) ?_
    have hi := taskInv h2 x
    cases hd : (s₂.pc x).did i with
    | false => rw [hi.didnt i hd]; exact Nat.zero_le _
    | true => obtain ⟨_, _, _, e, _⟩ := hi.did i hd; rw [e]; exact Nat.le_refl _
  · have hi := taskInv h3 x
    obtain ⟨hd, hgr⟩ := sure_did hi hx
    obtain ⟨k', u, g', e1, e2, e3⟩ := hi.did i hd
    rw [hgr] at e2
    cases e2
    obtain rfl := (agree h1 hg (List.mem_append_left _ (List.mem_append_left _ e3))).2 rfl
    rw [mapEvents_append, updaters_append]
    exact List.mem_append_left _ (mem_updaters.2 ⟨u, by rw [e1]; exact List.mem_singleton.2 rfl⟩)
  · obtain ⟨u, hu⟩ := mem_updaters.1 hx
    have hi := taskInv h2 x
    cases hd : (s₂.pc x).did i with
    | false => rw [hi.didnt i hd] at hu; cases hu
    | true =>
      obtain ⟨k', u', g', e1, e2, e3⟩ := hi.did i hd
      rw [e1, List.mem_singleton] at hu
      cases hu
      obtain rfl := (agree h1 hg (List.mem_append_left _ e3)).1 rfl
      refine mayIn_mono (fun e he hn => ?_) (did_may hi hd e2)
      simp only [List.mem_append, List.mem_cons] at he ⊢
      rcases he with he | he | he
      · exact .inl he
      · exact absurd he (hn _ _)
      · exact .inr (.inl he)

/-- Who must be counted has an entry from then on. -/
theorem sure_there {m : Mode} {c : Vec → ShardConf Key} {cap : Nat} {A B R : List Event} {s : Sys} {i : Vec} {t : Tid}
    (h : Exec (Step m c) (.new cap) (A ++ .on i (.vec (.startPass t)) :: B ++ R) s) {g : i.groups.Group} {x : Tid}
    (hx : SureIn i g A x) : ∃ k, .on i (.lab (.encoded x g (some k))) ∈ A ∧
      SparseThere t (mapEvents i A) (mapEvents i B) k := by
  have hl : A ++ .on i (.vec (.startPass t)) :: B ++ R = A ++ (.on i (.vec (.startPass t)) :: B ++ R) := by simp
  have h' := h
  rw [hl] at h'
  obtain ⟨s₃, h3, _⟩ := exec_split A _ h'
  have hi := taskInv h3 x
  obtain ⟨hd, hgr⟩ := sure_did hi hx
  obtain ⟨k, u, g', e1, e2, e3⟩ := hi.did i hd
  rw [hgr] at e2
  cases e2
  refine ⟨k, e3, fun p hp hnone => ?_⟩
  obtain ⟨B', ⟨B'', rfl⟩, rfl⟩ := mapEvents_prefix hp
  have hm := to_map h3 i
  have hup : updatesOf k (mapEvents i A) ≠ [] := by
    intro h0
    have := mem_updaters.2 ⟨u, (by rw [e1]; exact List.mem_singleton.2 rfl : (k, u) ∈ updatesBy x (mapEvents i A))⟩
    rw [List.eq_nil_of_length_eq_zero (by rw [length_updaters, h0]; rfl : (updaters k (mapEvents i A)).length = 0)] at this
    cases this
  have hA : ∃ us, mapOf (mapEvents i A) k = some us := by
    cases hk : mapOf (mapEvents i A) k with
    | some us => exact ⟨us, rfl⟩
    | none =>
      rw [C23_updates hm k, removedOf_nil fun v r => no_remove h3 i v k r, (s_inv hm).abs, hk] at hup
      exact absurd rfl hup
  obtain ⟨us, hA⟩ := hA
  have h2 : ∃ s, Exec (Step m c) (.new cap) (A ++ .on i (.vec (.startPass t)) :: B') s := by
    rw [show A ++ .on i (.vec (.startPass t)) :: (B' ++ B'') ++ R = (A ++ .on i (.vec (.startPass t)) :: B') ++ (B'' ++ R) by simp] at h
    obtain ⟨s₂, h2, _⟩ := exec_split _ _ h
    exact ⟨s₂, h2⟩
  obtain ⟨s₂, h2⟩ := h2
  have hev : mapEvents i (A ++ .on i (.vec (.startPass t)) :: B') = mapEvents i A ++ .startPass t :: mapEvents i B' := by
    rw [mapEvents_append, mapEvents_cons]
    simp [mapEvents, onVecs, onVector, vecEvents]
  have hm2 := to_map h2 i
  rw [hev] at hm2
  obtain ⟨us', hus', _⟩ := mapOf_grows hm2 hA fun v r hm => no_remove h2 i v k (some r) (by rw [hev]; exact List.mem_append_right _ hm)
  rw [hus'] at hnone
  cases hnone

theorem insert_of_mem {U : Type} {k : Key} {l : List (SEvent Key U)} {us : List U} (h : mapOf l k = some us) :
    ∃ v, .insert v k ∈ l := by
  induction l using List.reverseRecOn generalizing us with
  | nil => cases h
  | append_singleton l e ih =>
    rw [mapOf, List.foldl_append] at h
    have old : mapOf l k ≠ none → ∃ v, .insert v k ∈ l ++ [e] := fun hn => by
      obtain ⟨us, hus⟩ := Option.ne_none_iff_exists'.1 hn
      obtain ⟨v, hv⟩ := ih hus
      exact ⟨v, List.mem_append_left _ hv⟩
    change mapAfter (mapOf l) e k = some us at h
    cases e with
    | insert v k' =>
      simp only [mapAfter] at h
      split at h
      · rename_i hk; subst hk; exact ⟨v, by simp⟩
      · exact old (by rw [h]; simp)
    | update v k' u =>
      simp only [mapAfter] at h
      split at h
      · exact old (by intro h0; rw [h0] at h; cases h)
      · exact old (by rw [h]; simp)
    | remove v k' r =>
      simp only [mapAfter] at h
      split at h
      · cases h
      · exact old (by rw [h]; simp)
    | _ => exact old (by simp only [mapAfter] at h; rw [h]; simp)

/-- Whoever makes an entry may be counted for it. -/
theorem insert_may {m : Mode} {c : Vec → ShardConf Key} {cap : Nat} {tr : List Event} {s : Sys}
    (h : Exec (Step m c) (.new cap) tr s) {i : Vec} {v : Tid} {k : Key} (hm : .on i (.vec (.insert v k)) ∈ tr) :
    ∃ g, .on i (.lab (.encoded v g (some k))) ∈ tr ∧ MayIn i g tr v := by
  induction h with
  | nil => cases hm
  | @snoc tr s e s' he hs ih =>
    rcases List.mem_append.1 hm with hm | hm
    · obtain ⟨g, h1, h2⟩ := ih hm
      exact ⟨g, List.mem_append_left _ h1, mayIn_mono (fun e he _ => List.mem_append_left _ he) h2⟩
    · rw [List.mem_singleton] at hm
      subst hm
      cases hs with
      | own hn _ => exact absurd rfl (hn _ _)
      | @on t _ _ _ _ _ hm =>
        have hi := taskInv he t
        generalize s.pc t = q at hm hi
        cases hm with
        | reqGet r k' hq =>
          cases hq
          obtain ⟨g, h1, h2⟩ := hi.key .requests k rfl
          cases h1
          exact ⟨_, List.mem_append_left _ h2, r, rfl, List.mem_append_left _ ((hi.began r).2 rfl)⟩
        | durGet r k' st hq =>
          cases hq
          obtain ⟨g, h1, h2⟩ := hi.key .duration k rfl
          cases h1
          exact ⟨_, List.mem_append_left _ h2, r, rfl, List.mem_append_left _ ((hi.began r).2 rfl),
            (hi.left rfl).imp (fun ⟨st, h⟩ => ⟨st, List.mem_append_left _ h⟩) fun h => List.mem_append_left _ h⟩
        | resGet r st k' hq =>
          cases hq
          obtain ⟨g, h1, h2⟩ := hi.key .responses k rfl
          cases h1
          exact ⟨_, List.mem_append_left _ h2, r, st, rfl, List.mem_append_left _ ((hi.began r).2 rfl),
            List.mem_append_left _ ((hi.answered st).2 rfl)⟩
        | reqEncode _ hq => cases hq
        | timerEncode _ hq => cases hq
        | resEncode _ _ hq => cases hq
        | collect _ _ _ hq => cases hq

/-- An entry is for a group that some request may be counted for. -/
theorem entry_may {m : Mode} {c : Vec → ShardConf Key} {cap : Nat} {A B R : List Event} {s : Sys} {i : Vec} {t : Tid}
    (h : Exec (Step m c) (.new cap) (A ++ .on i (.vec (.startPass t)) :: B ++ R) s) {p : List (SEvent Key i.Call)}
    (hp : p <+: mapEvents i B) {k : Key} {us : List i.Call} (hk : mapOf (mapEvents i A ++ .startPass t :: p) k = some us)
    {g : i.groups.Group} {y : Tid} (hg : .on i (.lab (.encoded y g (some k))) ∈ A ++ .on i (.vec (.startPass t)) :: B) :
    ∃ x, MayIn i g (A ++ B) x := by
  obtain ⟨s₁, h1, _⟩ := exec_split _ R h
  obtain ⟨v, hv⟩ := insert_of_mem hk
  have hv : .on i (.vec (.insert v k)) ∈ A ++ .on i (.vec (.startPass t)) :: B := by
    rw [List.mem_append, List.mem_cons] at hv
    rw [List.mem_append, List.mem_cons]
    rcases hv with hv | hv | hv
    · exact .inl ((mem_mapEvents (by simp)).1 hv)
    · cases hv
    · exact .inr (.inr ((mem_mapEvents (by simp)).1 (hp.mem hv)))
  obtain ⟨g', h2, h3⟩ := insert_may h1 hv
  obtain rfl := (agree h1 hg h2).1 rfl
  refine ⟨v, mayIn_mono (fun e he hn => ?_) h3⟩
  simp only [List.mem_append, List.mem_cons] at he ⊢
  rcases he with he | he | he
  · exact .inl he
  · exact absurd he (hn _ _)
  · exact .inr he

end Measured.Server
