import Verif.Spec.ExportHist
import Verif.Props.Export
import Verif.Props.HistVec

/-! # Proofs about the example server with its histograms step by step -/

namespace Measured.Conc
open Measured.Spec

theorem exec_none {S E : Type} {step : S → E → S → Prop} {a b : S} (h : Exec step a [] b) : b = a := by
  generalize hl : ([] : List E) = l at h
  cases h with
  | nil => rfl
  | snoc => simp at hl

theorem exec_single {S E : Type} {step : S → E → S → Prop} {a b : S} {e : E} (h : Exec step a [e] b) : step a e b := by
  obtain ⟨z, h1, h2⟩ := exec_cons_inv h
  rw [exec_none h2]; exact h1

variable {K U : Type} [DecidableEq K]

theorem perm_eraseT {l l' : List (K × List U)} (h : l.Perm l') : (eraseT l).Perm (eraseT l') := h.map _

/-- Without what the entries record, a step is a step. -/
theorem step_erase {c : ShardConf K} {s s' : SSys K U} {e : SEvent K U} (hs : SStep c s e s') (he : ∀ t k u, e ≠ .update t k u) :
    SStep c s.erase e.erase s'.erase := by
  have hpc : ∀ {t p}, (s.thr t).pc = p → (s.erase.thr t).pc = p.erase := fun {t p} h => congrArg SPc.erase h
  have hfind : ∀ {k i us}, findKey k (s.shards i) = some us → findKey k (s.erase.shards i) = some [] := fun {k i us} h => by
    show findKey k (eraseT _) = _
    rw [findKey_eraseT, h]; rfl
  have hnone : ∀ {k i}, findKey k (s.shards i) = none → findKey k (s.erase.shards i) = none := fun {k i} h => by
    show findKey k (eraseT _) = _
    rw [findKey_eraseT, h]; rfl
  have hat : ∀ {i j : Nat} {l : List (K × List U)} {k us}, l[j]? = some (k, us) → (eraseT l)[j]? = some (k, []) := fun {i j l k us} h => by
    unfold eraseT
    rw [List.getElem?_map, h]; rfl
  cases hs with
  | startGet t k h => rw [erase_goto]; exact .startGet _ t k (hpc h)
  | lockRead t k h hl => rw [erase_goto]; exact .lockRead _ t k (hpc h) (erase_canRead.2 hl)
  | hit t k us h hf => rw [erase_setGuards]; exact .hit _ t k _ (hpc h) (hfind hf)
  | miss t k h hf => rw [erase_goto]; exact .miss _ t k (hpc h) (hnone hf)
  | missRelease t k h => rw [erase_goto]; exact .missRelease _ t k (hpc h)
  | lockWrite t k h hl => rw [erase_goto]; exact .lockWrite _ t k (hpc h) (erase_canWrite.2 hl)
  | insertFound t k us h hf => rw [erase_goto]; exact .insertFound _ t k _ (hpc h) (hfind hf)
  | insertNew t k l h hf hl => rw [erase_goto, erase_setShard]; exact .insertNew _ t k _ (hpc h) (hnone hf) (perm_eraseT hl)
  | downgrade t k h => rw [erase_goto]; exact .downgrade _ t k (hpc h)
  | refind t k us h hf => rw [erase_setGuards]; exact .refind _ t k _ (hpc h) (hfind hf)
  | refindPanic t k h hf => rw [erase_goto]; exact .refindPanic _ t k (hpc h) (hnone hf)
  | update t k u => exact absurd rfl (he t k u)
  | dangling t k h hg hf => rw [erase_goto]; exact .dangling _ t k (hpc h) hg (hnone hf)
  | release t k h hg => rw [erase_setGuards]; exact .release _ t k (hpc h) hg
  | startRemove t k h => rw [erase_goto]; exact .startRemove _ t k (hpc h)
  | rmLock t k h hl => rw [erase_goto]; exact .rmLock _ t k (hpc h) (erase_canWrite.2 hl)
  | removeSome t k us l h hf hl =>
    rw [erase_goto, erase_setShard]
    exact .removeSome _ t k [] _ (hpc h) (hfind hf) (perm_eraseT hl)
  | removeNone t k h hf => rw [erase_goto]; exact .removeNone _ t k (hpc h) (hnone hf)
  | rmRelease t k h => rw [erase_goto]; exact .rmRelease _ t k (hpc h)
  | startPass t h => rw [erase_goto]; exact .startPass _ t (hpc h)
  | passLock t i acc h hi hl => rw [erase_goto]; exact .passLock _ t i _ (hpc h) hi (erase_canRead.2 hl)
  | emit t i j acc snap k old us cur h hc ho h1 h2 =>
    rw [erase_goto]
    have := SStep.emit (c := c) s.erase t i j (eraseT acc) (eraseT snap) k [] [] [] (hpc h) (hat (i := i) hc) (hat (i := i) ho)
      (List.prefix_refl _) (List.prefix_refl _)
    simpa [SPc.erase, eraseT, SEvent.erase] using this
  | abort t i j acc snap h => rw [erase_goto]; exact .abort _ t i j _ _ (hpc h)
  | passNext t i j acc snap h hj => rw [erase_goto]; exact .passNext _ t i j _ _ (hpc h) (by simpa [SSys.erase, eraseT] using hj)
  | endPass t i acc h hi => rw [erase_goto]; exact .endPass _ t i _ (hpc h) hi

/-- What an event is, up to what the entries record. -/
theorem erase_inj {e e' : SEvent K U} (h : e'.erase = e.erase) (hu : ∀ t k x, e ≠ .update t k x) (hu' : ∀ t k x, e' ≠ .update t k x)
    (he : ∀ t k us, e ≠ .emit t k us) (hr : ∀ t k us, e ≠ .remove t k us) :
    e' = e ∨ ∃ t acc acc', e = .endPass t acc ∧ e' = .endPass t acc' ∧ acc'.map Prod.fst = acc.map Prod.fst := by
  cases e <;> first
    | exact absurd rfl (hu _ _ _)
    | exact absurd rfl (he _ _ _)
    | exact absurd rfl (hr _ _ _)
    | skip
  all_goals cases e' <;> first
    | exact absurd rfl (hu' _ _ _)
    | (simp only [SEvent.erase, reduceCtorEq] at h; done)
    | skip
  case endPass.endPass t acc t' acc' =>
    simp only [SEvent.erase, SEvent.endPass.injEq] at h
    obtain ⟨rfl, h⟩ := h
    refine .inr ⟨_, _, _, rfl, rfl, ?_⟩
    have := congrArg (List.map Prod.fst) h
    simpa [eraseT, Function.comp_def] using this
  all_goals
    simp only [SEvent.erase, SEvent.startGet.injEq, SEvent.startRemove.injEq, SEvent.startPass.injEq, SEvent.lockR.injEq,
      SEvent.lockW.injEq, SEvent.acquired.injEq, SEvent.insert.injEq, SEvent.release.injEq, SEvent.panic.injEq,
      SEvent.silent.injEq] at h
    left
    simp_all

end Measured.Conc

namespace Measured.Server
open Measured.Conc Measured.Spec

/-- Where the request is in the middleware, seen with single-step histograms: one step further as soon as its duration has been
added to the sum. -/
def PcRel (hist : Key → HistSys) (t : Tid) (p a : Pc) : Prop :=
  (∃ r k st x, p = .durObserve r k st ∧ (hist k).pc t = .added x ∧ a = .durDrop r k st) ∨
    (∀ k x, (hist k).pc t ≠ .added x) ∧ a = p

/-- The value that is being observed and has not been added to the sum. -/
def HistPc.val : HistPc → Option F64
  | .wantRead _ x | .bump _ x | .adding x | .loaded x _ => some x
  | _ => none

/-- `b` is what `s` is with single-step histograms, after `ev` on the map of the durations. -/
structure BaseInv (c : Vec → ShardConf Key) (le : List F64) (ev : List (SEvent Key HistCall)) (b s : Sys) (hist : Key → HistSys) :
    Prop where
  hv : ∃ htr, HVInv (c .duration) le htr ev (b.vecs.own .duration).vec ⟨(s.vecs.own .duration).vec.erase, hist⟩
  heap : b.vecs.heap = s.vecs.heap
  own : ∀ i, i ≠ .duration → b.vecs.own i = s.vecs.own i
  ids : (b.vecs.own .duration).ids = (s.vecs.own .duration).ids
  lab : (b.vecs.own .duration).pc = (s.vecs.own .duration).pc
  seen : (b.vecs.own .duration).seen = (s.vecs.own .duration).seen
  pc : ∀ t, PcRel hist t (s.pc t) (b.pc t)
  val : ∀ t k x, HistPc.val ((hist k).pc t) = some x → ∃ d, d / 10 ^ 9 < 2 ^ 64 ∧ x = asSecsF64 d

/-- The same but for what the entries record and where the requests are. -/
structure Same (b s : Sys) : Prop where
  heap : b.vecs.heap = s.vecs.heap
  own : ∀ i, i ≠ .duration → b.vecs.own i = s.vecs.own i
  ids : (b.vecs.own .duration).ids = (s.vecs.own .duration).ids
  lab : (b.vecs.own .duration).pc = (s.vecs.own .duration).pc
  seen : (b.vecs.own .duration).seen = (s.vecs.own .duration).seen
  vec : (b.vecs.own .duration).vec.erase = (s.vecs.own .duration).vec.erase

theorem BaseInv.same {c : Vec → ShardConf Key} {le : List F64} {ev : List (SEvent Key HistCall)} {b s : Sys} {hist : Key → HistSys} (I : BaseInv c le ev b s hist) : Same b s :=
  ⟨I.heap, I.own, I.ids, I.lab, I.seen, I.hv.choose_spec.vec⟩

section
variable {b b' s s' : Sys} {t : Tid}

theorem Same.symm (I : Same b s) : Same s b :=
  ⟨I.heap.symm, fun i hi => (I.own i hi).symm, I.ids.symm, I.lab.symm, I.seen.symm, I.vec.symm⟩

theorem Same.labs (I : Same b s) (i : Vec) : (b.vecs.own i).pc = (s.vecs.own i).pc := by
  by_cases hi : i = .duration
  · subst hi; exact I.lab
  · rw [I.own i hi]

theorem Same.at_eq (I : Same b s) {i : Vec} (hi : i ≠ .duration) : b.vecs.at i = s.vecs.at i := by
  unfold SharedSys.at
  rw [I.heap, I.own i hi]

theorem Same.lab_eq (I : Same b s) : (b.vecs.at .duration).lab = (s.vecs.at .duration).lab := by
  unfold SharedSys.at
  rw [I.heap, I.ids, I.lab]

end

/-- The same event, up to what the entries record. -/
def Like (e e' : Event) : Prop :=
  e' = e ∨ ∃ t acc acc', e = .on .duration (.vec (.endPass t acc)) ∧ e' = .on .duration (.vec (.endPass t acc')) ∧
    acc'.map Prod.fst = acc.map Prod.fst

/-- A step on the vectors that leaves the histograms alone. -/
def Plain : Event → Prop
  | .on .duration (.vec (.insert ..)) | .on .duration (.vec (.update ..)) | .on .duration (.shown ..) => False
  | _ => True

theorem Like.shows {e e' : Event} (h : Like e e') : DShows (.top (.base e)) [.base e'] := by
  rcases h with rfl | ⟨t, acc, acc', rfl, rfl, h⟩
  · exact .top _
  · exact .ended t acc acc' h

theorem Like.of {e e' : Event} (h : Like e e') {t : Tid} (ht : e.Of t) : e'.Of t := by
  rcases h with rfl | ⟨t, acc, acc', rfl, rfl, _⟩ <;> exact ht

section
variable {m : Mode} {c : Vec → ShardConf Key} {le : List F64} {ev : List (SEvent Key HistCall)} {b b' s s' : Sys}
  {hist : Key → HistSys} {t : Tid}

theorem BaseInv.pc_idle (I : BaseInv c le ev b s hist) (hq : ∀ k, (hist k).pc t = .idle) : b.pc t = s.pc t := by
  rcases I.pc t with ⟨r, k, st, x, _, h, _⟩ | ⟨_, h⟩
  · rw [hq k] at h; cases h
  · exact h

theorem BaseInv.vec (I : BaseInv c le ev b s hist) : (b.vecs.own .duration).vec.erase = (s.vecs.own .duration).vec.erase := by
  obtain ⟨_, h⟩ := I.hv
  exact h.vec

theorem BaseInv.labs (I : BaseInv c le ev b s hist) (i : Vec) : (b.vecs.own i).pc = (s.vecs.own i).pc := by
  by_cases hi : i = .duration
  · subst hi; exact I.lab
  · rw [I.own i hi]

theorem BaseInv.at_eq (I : BaseInv c le ev b s hist) {i : Vec} (hi : i ≠ .duration) : b.vecs.at i = s.vecs.at i := by
  unfold SharedSys.at
  rw [I.heap, I.own i hi]

theorem BaseInv.lab_eq (I : BaseInv c le ev b s hist) : (b.vecs.at .duration).lab = (s.vecs.at .duration).lab := by
  unfold SharedSys.at
  rw [I.heap, I.ids, I.lab]

theorem pcRel_update {hist : Key → HistSys} {P A : Tid → Pc} (h : ∀ t, PcRel hist t (P t) (A t)) {t : Tid}
    (hq : ∀ k x, (hist k).pc t ≠ .added x) (p : Pc) (u : Tid) :
    PcRel hist u (Function.update P t p u) (Function.update A t p u) := by
  by_cases hu : u = t
  · subst hu; rw [Function.update_self, Function.update_self]; exact .inr ⟨hq, rfl⟩
  · rw [Function.update_of_ne hu, Function.update_of_ne hu]; exact h u

theorem erase_idle {U : Type} {p : SPc Key U} (h : p.erase = .idle) : p = .idle := by cases p <;> first | rfl | cases h

/-- Whatever a request follows, it follows. -/
theorem follows_lift {e e' : Event} (I : Same b s) (I' : Same b' s') (hp : b.pc t = s.pc t) (hl : Like e e') (h : Follows t s e s') : Follows t b e' b' := by
  rcases hl with rfl | ⟨u, acc, acc', rfl, rfl, _⟩
  · unfold Follows at h ⊢
    rw [hp]
    split at h
    · rw [I.labs, I'.labs]; exact h
    · exact h
    · trivial
  · intro r k; rw [hp]; exact h r k

theorem collects_lift {i : Vec} {f : LVEvent Lab i.Call i.groups.n} (I : Same b s) (I' : Same b' s')
    (h : Collects t i s f s') : Collects t i b f b' := by
  by_cases hi : i = .duration
  · subst hi
    have hv := I.vec
    have hv' := I'.vec
    unfold Collects at h ⊢
    split at h
    · obtain ⟨sh, j, acc, snap, k, us, env, rest, ks, h1, h2, h3, h4, h5⟩ := h
      have g1 : ((b.vecs.own .duration).vec.erase.thr t).pc = .scan sh j (eraseT acc) (eraseT snap) := by
        rw [hv]; exact congrArg SPc.erase h1
      have g2 : (eraseT ((b.vecs.own .duration).vec.shards sh))[j]? = some (k, []) := by
        have : (b.vecs.own .duration).vec.erase.shards sh = (s.vecs.own .duration).vec.erase.shards sh := by rw [hv]
        show ((b.vecs.own .duration).vec.erase.shards sh)[j]? = _
        rw [this]
        show (eraseT _)[j]? = _
        unfold eraseT
        rw [List.getElem?_map, h2]; rfl
      obtain ⟨acc', snap', g3⟩ : ∃ acc' snap', ((b.vecs.own .duration).vec.thr t).pc = .scan sh j acc' snap' := by
        have g1 : ((b.vecs.own .duration).vec.thr t).pc.erase = .scan sh j (eraseT acc) (eraseT snap) := g1
        generalize eraseT acc = A, eraseT snap = S at g1
        cases hp : ((b.vecs.own .duration).vec.thr t).pc <;> rw [hp] at g1 <;> cases g1
        exact ⟨_, _, rfl⟩
      unfold eraseT at g2
      rw [List.getElem?_map, Option.map_eq_some_iff] at g2
      obtain ⟨⟨k', us'⟩, g2, hk⟩ := g2
      simp only [Prod.mk.injEq, and_true] at hk
      subst hk
      exact ⟨sh, j, acc', snap', k', us', env, rest, ks, g3, g2, by rw [I.seen]; exact h3, by rw [I'.lab]; exact h4, by
        rw [I'.lab, I.lab]; exact h5⟩
    · trivial
    · trivial
    · trivial
    · trivial
    · intro hb
      refine h (erase_idle ?_)
      show ((s'.vecs.own .duration).vec.erase.thr t).pc = _
      rw [← hv']
      exact congrArg SPc.erase hb
    · exact h
  · unfold Collects at h ⊢
    rw [I.own i hi, I'.own i hi]
    exact h

theorem put_self (v : SharedSys (Rodeo Lab) Lab Vec.Call Vec.groups) (i : Vec) (x : LVSys (Rodeo Lab) Lab i.Call i.groups.n) :
    (v.put i x).own i = ⟨x.lab.ids, x.lab.pc, x.vec, x.seen⟩ := Function.update_self ..

theorem put_ne (v : SharedSys (Rodeo Lab) Lab Vec.Call Vec.groups) {i j : Vec} (h : j ≠ i) (x : LVSys (Rodeo Lab) Lab i.Call i.groups.n) :
    (v.put i x).own j = v.own j := Function.update_of_ne h ..

theorem mapEvents_ne {i : Vec} (hi : i ≠ .duration) (f : LVEvent Lab i.Call i.groups.n) : mapEvents .duration [.on i f] = [] := by
  cases i <;> first | rfl | exact absurd rfl hi

/-- The vector of the durations has become `y` and the rest is as it was. -/
theorem BaseInv.put (I : BaseInv c le ev b s hist) {ev' : List (SEvent Key HistCall)} {hist' : Key → HistSys}
    {x y : LVSys (Rodeo Lab) Lab Vec.duration.Call Vec.duration.groups.n} {P A : Tid → Pc}
    (hl : y.lab = x.lab) (hs : y.seen = x.seen)
    (hv : ∃ htr, HVInv (c .duration) le htr ev' y.vec ⟨x.vec.erase, hist'⟩)
    (hp : ∀ t, PcRel hist' t (P t) (A t))
    (hval : ∀ t k x, HistPc.val ((hist' k).pc t) = some x → ∃ d, d / 10 ^ 9 < 2 ^ 64 ∧ x = asSecsF64 d) :
    BaseInv c le ev' ⟨b.vecs.put .duration y, A⟩ ⟨s.vecs.put .duration x, P⟩ hist' where
  hv := by
    rw [put_self, put_self]; exact hv
  heap := congrArg LabelSys.heap hl
  own := fun i hi => by
    show (b.vecs.put _ y).own i = (s.vecs.put _ x).own i
    rw [put_ne _ hi, put_ne _ hi]; exact I.own i hi
  ids := by
    show ((b.vecs.put _ y).own _).ids = ((s.vecs.put _ x).own _).ids
    rw [put_self, put_self]; exact congrArg LabelSys.ids hl
  lab := by
    show ((b.vecs.put _ y).own _).pc = ((s.vecs.put _ x).own _).pc
    rw [put_self, put_self]; exact congrArg LabelSys.pc hl
  seen := by
    show ((b.vecs.put _ y).own _).seen = ((s.vecs.put _ x).own _).seen
    rw [put_self, put_self]; exact hs
  pc := hp
  val := hval

/-- A step outside of the histograms. -/
theorem lift_base {e : Event} (I : BaseInv c le ev b s hist) (hs : Step m c s e s') (ht : e.Of t) (hq : ∀ k, (hist k).pc t = .idle)
    (hc : Plain e) :
    ∃ e' b', Step m c b e' b' ∧ Like e e' ∧ BaseInv c le (ev ++ mapEvents .duration [e']) b' s' hist := by
  have hpt := I.pc_idle hq
  have hna : ∀ k x, (hist k).pc t ≠ .added x := by intro k x h; rw [hq k] at h; cases h
  cases hs with
  | @own u _ p hn hm =>
    have hu : u = t := of_unique (moves_of hm) ht
    subst hu
    refine ⟨e, ⟨b.vecs, Function.update b.pc u p⟩, .own hn (hpt ▸ hm), .inl rfl, ?_⟩
    have : mapEvents .duration [e] = [] := by cases e <;> first | rfl | exact absurd rfl (hn _ _)
    rw [this, List.append_nil]
    exact ⟨I.hv, I.heap, I.own, I.ids, I.lab, I.seen, pcRel_update I.pc hna p, I.val⟩
  | @on u i f x p hl hm hi =>
    have hu : u = t := of_unique (moves_of hm) ht
    subst hu
    by_cases hdur : i = .duration
    · subst hdur
      cases hl with
      | @lab e l hl =>
        rw [← hpt] at hm hi
        rw [← I.lab_eq] at hl
        refine ⟨_, _, .on (.lab hl) hm ?_, .inl rfl, ?_⟩
        · rw [I.heap]; exact hi
        · rw [show mapEvents .duration [.on .duration (.lab e)] = [] from rfl, List.append_nil]
          refine I.put rfl ?_ ?_ (pcRel_update I.pc hna p) I.val
          · show noteDecode (b.vecs.own _).seen e = noteDecode (s.vecs.own _).seen e
            rw [I.seen]
          · exact I.hv
      | @vec e v hv ha =>
        have hu : ∀ t k x, e ≠ .update t k x := by rintro t k x rfl; exact hc
        have hin : ∀ t k, e ≠ .insert t k := by rintro t k rfl; exact hc
        have hem : ∀ t k us, e ≠ .emit t k us := by rintro t k us rfl; exact ha
        have hrm : ∀ t k us, e ≠ .remove t k us := by
          rintro t k us rfl
          clear hpt hi
          generalize s.pc u = q at hm
          cases hm <;> rename_i h <;> cases h
        have ht : e.tid = u := ht
        obtain ⟨htr, H⟩ := I.hv
        have hpl : e.erase.plain = true := by
          cases e <;> first | rfl | exact absurd rfl (hin _ _) | exact absurd rfl (hem _ _ _) | exact absurd rfl (hrm _ _ _)
        obtain ⟨part, a', h1, h2, h3⟩ := hv_step_by (w := .observe) (fun _ => rfl) H
          (.vec ⟨_, hist⟩ e.erase v.erase (step_erase hv hu) hpl fun k => by rw [erase_tid, ht]; exact hq k)
        obtain ⟨e', rfl, he'⟩ : ∃ e', part = [e'] ∧ e'.erase = e.erase ∧ ∀ t k x, e' ≠ .update t k x := by
          cases h1 with
          | vec _ e' g1 g2 => exact ⟨e', rfl, g1, g2⟩
        have hstep : SStep (c .duration) (b.vecs.own .duration).vec e' a' := exec_single h2
        have hlike : Like (.on .duration (.vec e)) (.on .duration (.vec e')) := by
          rcases erase_inj he'.1 hu he'.2 hem hrm with rfl | ⟨t, acc, acc', rfl, rfl, h⟩
          · exact .inl rfl
          · exact .inr ⟨t, acc, acc', rfl, rfl, h⟩
        rw [← hpt] at hm hi
        have hm' : Moves u (b.pc u) (.on .duration (.vec e')) p := by
          rcases erase_inj he'.1 hu he'.2 hem hrm with rfl | ⟨t, acc, acc', rfl, rfl, h⟩
          · exact hm
          · generalize b.pc u = q at hm
            cases hm with
            | collect r k _ h => cases h; exact .collect r k _ (.finish acc')
            | durGet r k st h => cases h
            | timerEncode r h => cases h
        have ha' : Allowed (b.vecs.at .duration).lab.ids e' := by
          rw [I.lab_eq]
          rcases erase_inj he'.1 hu he'.2 hem hrm with rfl | ⟨t, acc, acc', rfl, rfl, h⟩
          · exact ha
          · trivial
        have hll : LVStep m threadedRodeo Vec.duration.groups (c .duration) (b.vecs.at .duration) (.vec e')
          { b.vecs.at .duration with vec := a' } := .vec hstep ha'
        refine ⟨_, _, .on hll hm' ?_, hlike, ?_⟩
        · show InternsOwn _ (b.vecs.heap 0) (b.vecs.heap 0)
          rw [I.heap]; exact hi
        · refine I.put I.lab_eq I.seen ⟨_, (?_ : HVInv _ _ (htr ++ [.vec e.erase]) _ _ _)⟩ (pcRel_update I.pc hna p) I.val
          rw [show mapEvents .duration [.on .duration (.vec e')] = [e'] from rfl]
          exact h3
      | shown => exact hc.elim
    · rw [← hpt] at hm hi
      rw [← I.at_eq hdur] at hl
      refine ⟨_, _, .on hl hm (by rw [I.heap]; exact hi), .inl rfl, ?_⟩
      rw [mapEvents_ne hdur, List.append_nil]
      refine ⟨?_, rfl, fun j hj => ?_, ?_, ?_, ?_, pcRel_update I.pc hna p, I.val⟩
      · rw [put_ne _ (Ne.symm hdur), put_ne _ (Ne.symm hdur)]; exact I.hv
      · by_cases hji : j = i
        · subst hji
          show (b.vecs.put j x).own j = (s.vecs.put j x).own j
          rw [put_self, put_self]
        · show (b.vecs.put i x).own j = (s.vecs.put i x).own j
          rw [put_ne _ hji, put_ne _ hji]; exact I.own j hj
      · show ((b.vecs.put i x).own _).ids = ((s.vecs.put i x).own _).ids
        rw [put_ne _ (Ne.symm hdur), put_ne _ (Ne.symm hdur)]; exact I.ids
      · show ((b.vecs.put i x).own _).pc = ((s.vecs.put i x).own _).pc
        rw [put_ne _ (Ne.symm hdur), put_ne _ (Ne.symm hdur)]; exact I.lab
      · show ((b.vecs.put i x).own _).seen = ((s.vecs.put i x).own _).seen
        rw [put_ne _ (Ne.symm hdur), put_ne _ (Ne.symm hdur)]; exact I.seen

/-- A step on the map of the durations, with single-step histograms. -/
theorem step_vec {e : SEvent Key HistCall} {a : SSys Key HistCall} {p : Pc} (hs : SStep (c .duration) (b.vecs.own .duration).vec e a)
    (ha : Allowed (b.vecs.own .duration).ids e) (hm : Moves t (b.pc t) (.on .duration (.vec e)) p) :
    Step m c b (.on .duration (.vec e)) ⟨b.vecs.put .duration { b.vecs.at .duration with vec := a }, Function.update b.pc t p⟩ := by
  have hl : LVStep m threadedRodeo Vec.duration.groups (c .duration) (b.vecs.at .duration) (.vec e)
    { b.vecs.at .duration with vec := a } := .vec hs ha
  exact .on hl hm fun v hv => .inl hv

/-- A new histogram. -/
theorem lift_insert {k : Key} (I : BaseInv c le ev b s hist) (hs : Step m c s (.on .duration (.vec (.insert t k))) s')
    (hq : ∀ k, (hist k).pc t = .idle) :
    ∃ b', Step m c b (.on .duration (.vec (.insert t k))) b' ∧
      BaseInv c le (ev ++ [.insert t k]) b' s' (Function.update hist k ⟨HistInner.default le.length, (hist k).pc⟩) := by
  have hpt := I.pc_idle hq
  have hpc : ∀ u k', (Function.update hist k ⟨HistInner.default le.length, (hist k).pc⟩ k').pc u = (hist k').pc u := by
    intro u k'
    by_cases hk : k' = k
    · subst hk; rw [Function.update_self]
    · rw [Function.update_of_ne hk]
  generalize hh : Function.update hist k ⟨HistInner.default le.length, (hist k).pc⟩ = hist' at hpc ⊢
  have hna : ∀ k x, (hist' k).pc t ≠ .added x := by intro k x h; rw [hpc, hq k] at h; cases h
  cases hs with
  | own hn => exact absurd rfl (hn _ _)
  | @on u _ _ x p hl hm hi =>
    have hu : u = t := (moves_of hm).symm
    subst hu
    cases hl with
    | @vec _ v hv ha =>
      obtain ⟨htr, H⟩ := I.hv
      obtain ⟨part, a', h1, h2, h3⟩ := hv_step_by (w := .observe) (fun _ => rfl) H
        (.insert ⟨_, hist⟩ u k v.erase (step_erase hv (by simp)) fun k => hq k)
      obtain rfl : part = [.insert u k] := by
        cases h1 with
        | vec _ e' g1 g2 =>
          cases e' <;> cases g1
          rfl
      refine ⟨_, step_vec (exec_single h2) trivial (by rw [hpt]; exact hm), ?_⟩
      refine I.put I.lab_eq I.seen ⟨_, (?_ : HVInv _ _ (htr ++ [.vec (.insert u k)]) _ _ _)⟩ (pcRel_update (fun t => ?_) hna p) fun t k' x hx => ?_
      · rw [← hh]; exact h3
      · have := I.pc t
        unfold PcRel at this ⊢
        simp only [hpc]; exact this
      · rw [hpc] at hx; exact I.val t k' x hx

/-- The state of a histogram after calls of either kind. -/
theorem histOf_state {us : List HistCall} {h : HistInner} (hu : HistOf le (us.map HistCall.value) h) :
    stateAfter (histOps le) us = .ok h := by
  rw [stateAfter_follows (hist_follows le) us fun _ _ => trivial, sumUp_hist, histOf_conc hu]

/-- Nothing is left of what the thread did on the histogram, or it samples it. -/
theorem pcRel_hist {hist : Key → HistSys} {k : Key} {h : HistSys} {P A : Tid → Pc} (I : ∀ t, PcRel hist t (P t) (A t)) {t : Tid}
    (ho : ∀ u, u ≠ t → h.pc u = (hist k).pc u) (hn : ∀ x, (hist k).pc t ≠ .added x) (hn' : ∀ x, h.pc t ≠ .added x) (u : Tid) :
    PcRel (Function.update hist k h) u (P u) (A u) := by
  have hp : ∀ k' x, (Function.update hist k h k').pc u = .added x ↔ (hist k').pc u = .added x := by
    intro k' x
    by_cases hk : k' = k
    · subst hk
      rw [Function.update_self]
      by_cases hu : u = t
      · subst hu; exact ⟨fun h => absurd h (hn' x), fun h => absurd h (hn x)⟩
      · rw [ho u hu]
    · rw [Function.update_of_ne hk]
  have := I u
  unfold PcRel at this ⊢
  simp only [ne_eq, hp]
  exact this

theorem val_hist {hist : Key → HistSys} {k : Key} {h : HistSys} {Q : F64 → Prop} {t : Tid}
    (I : ∀ t k x, HistPc.val ((hist k).pc t) = some x → Q x) (ho : ∀ u, u ≠ t → h.pc u = (hist k).pc u)
    (hv : ∀ x, HistPc.val (h.pc t) = some x → Q x) (u : Tid) (k' : Key) (x : F64)
    (hx : HistPc.val ((Function.update hist k h k').pc u) = some x) : Q x := by
  by_cases hk : k' = k
  · subst hk
    rw [Function.update_self] at hx
    by_cases hu : u = t
    · subst hu; exact hv x hx
    · rw [ho u hu] at hx; exact I u k' x hx
  · rw [Function.update_of_ne hk] at hx; exact I u k' x hx

/-- The sample of an entry. -/
theorem lift_entry {k : Key} {g : requestsDef.Group} {r : List Nat × Nat × F64} {h : HistSys} (I : BaseInv c le ev b s hist)
    (hs : Step m c s (.on .duration (.shown t k g [])) s') (hh : HistStep le (hist k) (.sample t r) h) :
    ∃ us b', Step m c b (.on .duration (.shown t k g us)) b' ∧ stateAfter (histOps le) us = .ok ⟨r.1, r.2.1, r.2.2⟩ ∧
      BaseInv c le (ev ++ [.emit t k us]) b' s' (Function.update hist k h) := by
  obtain ⟨out, inf, sum, hpk, hpk', hr⟩ : ∃ out inf sum, (hist k).pc t = .sampled out inf sum ∧ h.pc t = .idle ∧ r = (out, inf, sum) := by
    cases hh with
    | unlockWrite _ out inf sum hp => exact ⟨out, inf, sum, hp, Function.update_self .., rfl⟩
  have hoth : ∀ u, u ≠ t → h.pc u = (hist k).pc u := fun u hu => hist_other hh hu
  cases hs with
  | own hn => exact absurd rfl (hn _ _)
  | @on u _ _ x p hl hm hi =>
    have hu : u = t := (moves_of hm).symm
    subst hu
    have hpt : b.pc u = s.pc u := by
      rcases I.pc u with ⟨r, k', st, x, h1, h2, _⟩ | ⟨_, h⟩
      · generalize s.pc u = q at hm h1
        subst h1
        cases hm
      · exact h
    cases hl with
    | @shown _ _ _ _ v hv hse =>
      obtain ⟨htr, H⟩ := I.hv
      obtain ⟨part, a', h1, h2, h3⟩ := hv_step_by (w := .observe) (fun _ => rfl) H
        (.emit ⟨_, hist⟩ u k r h v.erase hh (step_erase hv (by simp)))
      generalize hpart : part = pt at h1 h2
      cases h1 with
      | emit _ _ us h' hu =>
        subst hpart
        have hse : (b.vecs.own .duration).seen u = some (k, g) := by rw [I.seen]; exact hse
        have hl : LVStep m threadedRodeo Vec.duration.groups (c .duration) (b.vecs.at .duration) (.shown u k g us)
          { b.vecs.at .duration with vec := a', seen := Function.update (b.vecs.own .duration).seen u none } := .shown (exec_single h2) hse
        have hm' : Moves u (b.pc u) (.on .duration (.shown u k g us)) p := by
          rw [hpt]
          generalize s.pc u = q at hm
          cases hm with
          | collect r k _ h => exact .collect r k _ (.shown ..)
          | durGet r k st h => cases h
          | timerEncode r h => cases h
        refine ⟨us, _, .on hl hm' fun v hv => .inl hv, histOf_state hu, ?_⟩
        refine I.put I.lab_eq ?_ ⟨_, h3⟩ ?_ ?_
        · exact congrArg (fun f => Function.update f u none) I.seen
        · intro w
          have hn : ∀ x, (hist k).pc u ≠ .added x := fun x h => by rw [hpk] at h; cases h
          have hn' : ∀ x, h.pc u ≠ .added x := fun x h => by rw [hpk'] at h; cases h
          refine pcRel_hist (t := u) (fun w => ?_) hoth hn hn' w
          refine pcRel_update I.pc ?_ p w
          intro k' x hx
          rcases I.pc u with ⟨r', k₂, st, x, h1, h2, _⟩ | ⟨h, _⟩
          · clear hpt hm' hi
            generalize s.pc u = q at hm h1
            subst h1
            cases hm
          · exact h k' x hx
        · exact val_hist I.val hoth fun x hx => by rw [hpk'] at hx; cases hx

theorem added_from {a h : HistSys} {e : HistEvent} {x : F64} (hs : HistStep le a e h) (hp : a.pc e.tid = .added x) : e = .done e.tid x := by
  cases hs <;> simp_all [HistEvent.tid]

theorem added_to {a h : HistSys} {e : HistEvent} {x : F64} (hs : HistStep le a e h) (hp : h.pc e.tid = .added x) : e = .summed e.tid x := by
  cases hs <;> simp_all [HistEvent.tid, HistSys.goto]

theorem val_from {a h : HistSys} {e : HistEvent} {x : F64} (hs : HistStep le a e h) (hp : HistPc.val (h.pc e.tid) = some x) :
    e = .start e.tid x ∨ HistPc.val (a.pc e.tid) = some x := by
  cases hs <;> simp_all [HistEvent.tid, HistSys.goto, HistPc.val]

theorem thr_idle (I : BaseInv c le ev b s hist) : ((s.vecs.own .duration).vec.erase.thr t).guards = ((b.vecs.own .duration).vec.thr t).guards := by
  rw [← I.vec]; rfl

/-- A step of `observe` that does not add to the sum and is not the last. -/
theorem lift_observe {k : Key} {e : HistEvent} {h : HistSys} (I : BaseInv c le ev b s hist)
    (hi : ((s.vecs.own .duration).vec.thr t).pc = .idle) (hg : k ∈ ((s.vecs.own .duration).vec.thr t).guards)
    (hq : ∀ k', k' ≠ k → (hist k').pc t = .idle) (hs : HistStep le (hist k) e h) (ht : e.tid = t)
    (h0 : ((hist k).pc t).ofSampler = false) (h1 : (h.pc t).ofSampler = false)
    (hd : ∀ x, e = .start t x → ∃ d, d / 10 ^ 9 < 2 ^ 64 ∧ x = asSecsF64 d) (hn : ∀ x, e ≠ .done t x)
    (hsum : ∀ u x, e ≠ .summed u x) : BaseInv c le ev b s (Function.update hist k h) := by
  subst ht
  obtain ⟨htr, H⟩ := I.hv
  obtain ⟨part, a', g1, g2, g3⟩ := hv_step_by (w := .observe) (fun _ => rfl) H
    (.observe ⟨_, hist⟩ e.tid k e h hs rfl (congrArg SPc.erase hi) hg hq h0 h1)
  obtain rfl : part = [] := by
    generalize e.tid = u at g1
    cases g1 with
    | observed t k x => exact absurd rfl (hsum u x)
    | observing => rfl
  obtain rfl := exec_none g2
  rw [List.append_nil] at g3
  have hoth : ∀ u, u ≠ e.tid → h.pc u = (hist k).pc u := fun u hu => hist_other hs hu
  have ha : (∀ x, (hist k).pc e.tid ≠ .added x) ∧ ∀ x, h.pc e.tid ≠ .added x :=
    ⟨fun x hx => hn x (added_from hs hx), fun x hx => hsum _ x (added_to hs hx)⟩
  have hv : ∀ x, HistPc.val (h.pc e.tid) = some x → ∃ d, d / 10 ^ 9 < 2 ^ 64 ∧ x = asSecsF64 d := by
    intro x hx
    rcases val_from hs hx with h | h
    · exact hd x h
    · exact I.val _ k x h
  exact ⟨⟨_, g3⟩, I.heap, I.own, I.ids, I.lab, I.seen, pcRel_hist I.pc hoth ha.1 ha.2, val_hist I.val hoth hv⟩

/-- `observe` returns. -/
theorem lift_observed {r : Req} {k : Key} {st : Option Nat} {x : F64} {h : HistSys} (I : BaseInv c le ev b s hist)
    (hp : s.pc t = .durObserve r k st)
    (hi : ((s.vecs.own .duration).vec.thr t).pc = .idle) (hg : k ∈ ((s.vecs.own .duration).vec.thr t).guards)
    (hq : ∀ k', k' ≠ k → (hist k').pc t = .idle) (hs : HistStep le (hist k) (.done t x) h) :
    BaseInv c le ev b ⟨s.vecs, Function.update s.pc t (.durDrop r k st)⟩ (Function.update hist k h) := by
  have hpk : (hist k).pc t = .added x ∧ h.pc t = .idle := by
    cases hs with
    | unlockRead _ _ hp => exact ⟨hp, Function.update_self ..⟩
  obtain ⟨htr, H⟩ := I.hv
  obtain ⟨part, a', g1, g2, g3⟩ := hv_step_by (w := .observe) (fun _ => rfl) H
    (.observe ⟨_, hist⟩ t k _ h hs rfl (congrArg SPc.erase hi) hg hq (by rw [hpk.1]; rfl) (by rw [hpk.2]; rfl))
  obtain rfl : part = [] := by
    cases g1 with
    | observing => rfl
  obtain rfl := exec_none g2
  rw [List.append_nil] at g3
  have hoth : ∀ u, u ≠ t → h.pc u = (hist k).pc u := fun u hu => hist_other hs hu
  refine ⟨⟨_, g3⟩, I.heap, I.own, I.ids, I.lab, I.seen, fun u => ?_, val_hist I.val hoth fun x hx => by rw [hpk.2] at hx; cases hx⟩
  by_cases hu : u = t
  · subst hu
    right
    rcases I.pc u with ⟨r', k', st', x', h1, h2, h3⟩ | ⟨hno, _⟩
    · rw [hp] at h1
      cases h1
      refine ⟨fun k' x => ?_, ?_⟩
      · by_cases hk : k' = k
        · subst hk; rw [Function.update_self, hpk.2]; simp
        · rw [Function.update_of_ne hk, hq k' hk]; simp
      · show b.pc u = Function.update s.pc u _ u
        rw [Function.update_self]; exact h3
    · exact absurd hpk.1 (hno k x)
  · have e1 : ∀ k', (Function.update hist k h k').pc u = (hist k').pc u := by
      intro k'
      by_cases hk : k' = k
      · subst hk; rw [Function.update_self]; exact hoth u hu
      · rw [Function.update_of_ne hk]
    have := I.pc u
    unfold PcRel at this ⊢
    simp only [e1]
    show (∃ r k st x, Function.update s.pc t _ u = _ ∧ _) ∨ _ ∧ b.pc u = Function.update s.pc t _ u
    rw [Function.update_of_ne hu]
    exact this

/-- A duration is added to the sum. -/
theorem lift_summed {r : Req} {k : Key} {st : Option Nat} {x : F64} {h : HistSys} (I : BaseInv c le ev b s hist)
    (hp : s.pc t = .durObserve r k st)
    (hi : ((s.vecs.own .duration).vec.thr t).pc = .idle) (hg : k ∈ ((s.vecs.own .duration).vec.thr t).guards)
    (hq : ∀ k', k' ≠ k → (hist k').pc t = .idle) (hs : HistStep le (hist k) (.summed t x) h) :
    ∃ d b', d / 10 ^ 9 < 2 ^ 64 ∧ x = asSecsF64 d ∧ Step m c b (.on .duration (.vec (.update t k (.observeDuration d)))) b' ∧
      b.pc t = .durObserve r k st ∧ BaseInv c le (ev ++ [.update t k (.observeDuration d)]) b' s (Function.update hist k h) := by
  obtain ⟨cur, hpk, hpk'⟩ : ∃ cur, (hist k).pc t = .loaded x cur ∧ h.pc t = .added x := by
    cases hs with
    | casOk _ _ cur hp => exact ⟨cur, hp, Function.update_self ..⟩
  obtain ⟨d, hd, hx⟩ := I.val t k x (by rw [hpk]; rfl)
  obtain ⟨htr, H⟩ := I.hv
  obtain ⟨part, a', g1, g2, g3⟩ := hv_step_by (w := fun y => if y = x then .observeDuration d else .observe y) (fun y => by
      split
      · rename_i hy; subst hy; exact hx.symm
      · rfl) H
    (.observe ⟨_, hist⟩ t k _ h hs rfl (congrArg SPc.erase hi) hg hq (by rw [hpk]; rfl) (by rw [hpk']; rfl))
  obtain rfl : part = [.update t k (.observeDuration d)] := by
    cases g1 with
    | observed => rw [if_pos rfl]
    | observing _ _ _ hn => exact absurd rfl (hn t x)
  have hpt : b.pc t = .durObserve r k st := by
    rcases I.pc t with ⟨r', k', st', x', h1, h2, h3⟩ | ⟨_, h⟩
    · rw [hp] at h1
      cases h1
      rw [hpk] at h2; cases h2
    · rw [h, hp]
  have hoth : ∀ u, u ≠ t → h.pc u = (hist k).pc u := fun u hu => hist_other hs hu
  refine ⟨d, _, hd, hx, step_vec (exec_single g2) trivial (by rw [hpt]; exact .durObserve r k st d hd), hpt, ?_⟩
  have := BaseInv.put (x := s.vecs.at .duration) (P := s.pc) (A := Function.update b.pc t (.durDrop r k st)) I
    (y := { b.vecs.at .duration with vec := a' }) I.lab_eq I.seen ⟨_, g3⟩ ?_ ?_
  · rw [put_at] at this; exact this
  · intro u
    by_cases hu : u = t
    · subst hu
      exact .inl ⟨r, k, st, x, hp, by rw [Function.update_self]; exact hpk', Function.update_self ..⟩
    · have e1 : ∀ k', (Function.update hist k h k').pc u = (hist k').pc u := by
        intro k'
        by_cases hk : k' = k
        · subst hk; rw [Function.update_self]; exact hoth u hu
        · rw [Function.update_of_ne hk]
      have := I.pc u
      unfold PcRel at this ⊢
      simp only [e1]
      rw [Function.update_of_ne hu]
      exact this
  · exact val_hist I.val hoth fun y hy => by rw [hpk'] at hy; cases hy

/-- On the way to a sample. -/
theorem lift_sampling {k : Key} {e : HistEvent} {h : HistSys} {i j : Nat} {acc snap : List (Key × List HistCall)} {us : List HistCall}
    (I : BaseInv c le ev b s hist) (hc : ((s.vecs.own .duration).vec.thr t).pc = .scan i j acc snap)
    (hk : ((s.vecs.own .duration).vec.shards i)[j]? = some (k, us)) (hs : HistStep le (hist k) e h) (ht : e.tid = t)
    (h1 : (h.pc t).ofSampler = true) : BaseInv c le ev b s (Function.update hist k h) ∧ ∀ u x, e ≠ .summed u x := by
  subst ht
  have hno : ∀ u x, e ≠ .summed u x := by
    rintro u x rfl
    cases hs with
    | casOk => simp [HistPc.ofSampler, HistEvent.tid] at h1
  obtain ⟨htr, H⟩ := I.hv
  obtain ⟨part, a', g1, g2, g3⟩ := hv_step_by (w := .observe) (fun _ => rfl) H
    (.sampling ⟨_, hist⟩ e.tid k e h i j (eraseT acc) (eraseT snap) hs rfl (congrArg SPc.erase hc) (by
      show (eraseT _)[j]? = _
      unfold eraseT
      rw [List.getElem?_map, hk]; rfl) h1)
  obtain rfl : part = [] := by
    cases g1 with
    | sampling => rfl
  obtain rfl := exec_none g2
  rw [List.append_nil] at g3
  have hoth : ∀ u, u ≠ e.tid → h.pc u = (hist k).pc u := fun u hu => hist_other hs hu
  have hn' : ∀ x, h.pc e.tid ≠ .added x := fun x hx => by rw [hx] at h1; cases h1
  have hn : ∀ x, (hist k).pc e.tid ≠ .added x := by
    intro x hx
    have he := added_from hs hx
    generalize e.tid = u at he h1
    subst he
    cases hs
    simp [HistSys.goto, HistPc.ofSampler] at h1
  exact ⟨⟨⟨_, g3⟩, I.heap, I.own, I.ids, I.lab, I.seen, pcRel_hist I.pc hoth hn hn', val_hist I.val hoth fun x hx => by
    generalize h.pc e.tid = q at hx h1
    cases q <;> first | (cases hx; done) | cases h1⟩, hno⟩

end

end Measured.Server
