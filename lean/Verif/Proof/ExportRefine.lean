import Verif.Proof.ExportHist

/-! # Every run of the example server is one with single-step histograms -/

namespace Measured.Server
open Measured.Conc Measured.Spec

variable {m : Mode} {c : Vec → ShardConf Key} {ryu : F64 → Bytes} {le : List F64} {cap : Nat}

/-- `a` is what `s` is with single-step histograms, after the run `tr`. -/
structure DInv (m : Mode) (c : Vec → ShardConf Key) (ryu : F64 → Bytes) (le : List F64) (cap : Nat) (tr : List EEvent) (a : ESys)
    (s : DSys) : Prop where
  exec : Exec (EStep m c ryu le) (.new cap) tr a
  base : BaseInv c le (mapEvents .duration (baseEvents tr)) a.base s.top.base s.hist
  at' : a.at' = s.top.at'
  lock : a.lock = s.top.lock
  enc : a.enc = s.top.enc

theorem like_eq {e e' : Event} (h : Like e e') (hn : ∀ t acc, e ≠ .on .duration (.vec (.endPass t acc))) : e' = e := by
  rcases h with h | ⟨t, acc, _, rfl, _⟩
  · exact h
  · exact absurd rfl (hn t acc)

theorem plain_of {s : ESys} {e : Event} (h : Coarse s (.base e)) : Plain e := by
  cases e with
  | on i f =>
    cases i with
    | duration =>
      cases f with
      | vec f => cases f <;> first | exact h | trivial
      | lab => trivial
      | shown => exact h
    | _ => trivial
  | _ => trivial

theorem DInv.next {tr : List EEvent} {a a' : ESys} {s s' : DSys} (I : DInv m c ryu le cap tr a s) {e : EEvent}
    (hs : EStep m c ryu le a e a')
    (hb : BaseInv c le (mapEvents .duration (baseEvents tr) ++ mapEvents .duration (baseEvents [e])) a'.base s'.top.base s'.hist)
    (h1 : a'.at' = s'.top.at') (h2 : a'.lock = s'.top.lock) (h3 : a'.enc = s'.top.enc) :
    Exec (EStep m c ryu le) a [e] a' ∧ DInv m c ryu le cap (tr ++ [e]) a' s' :=
  ⟨Exec.nil.snoc hs, I.exec.snoc hs, by rw [baseEvents_append, mapEvents_append]; exact hb, h1, h2, h3⟩

theorem DInv.same {tr : List EEvent} {a a' : ESys} {s s' : DSys} (I : DInv m c ryu le cap tr a s) {e : EEvent}
    (hs : EStep m c ryu le a e a') (he : ∀ f, e ≠ .base f)
    (hb : BaseInv c le (mapEvents .duration (baseEvents tr)) a'.base s'.top.base s'.hist)
    (h1 : a'.at' = s'.top.at') (h2 : a'.lock = s'.top.lock) (h3 : a'.enc = s'.top.enc) :
    Exec (EStep m c ryu le) a [e] a' ∧ DInv m c ryu le cap (tr ++ [e]) a' s' := by
  refine I.next hs ?_ h1 h2 h3
  have : baseEvents [e] = [] := by cases e <;> first | rfl | exact absurd rfl (he _)
  rw [this]
  exact (List.append_nil (mapEvents .duration (baseEvents tr))).symm ▸ hb

theorem DInv.stay {tr : List EEvent} {a : ESys} {s s' : DSys} (I : DInv m c ryu le cap tr a s)
    (hb : BaseInv c le (mapEvents .duration (baseEvents tr)) a.base s'.top.base s'.hist)
    (h1 : s.top.at' = s'.top.at') (h2 : s.top.lock = s'.top.lock) (h3 : s.top.enc = s'.top.enc) :
    Exec (EStep m c ryu le) a [] a ∧ DInv m c ryu le cap (tr ++ []) a s' := by
  rw [List.append_nil]
  exact ⟨.nil, I.exec, hb, I.at'.trans h1, I.lock.trans h2, I.enc.trans h3⟩

/-- A sample that nobody gets to see. -/
theorem lift_lost {ev : List (SEvent Key HistCall)} {b s : Sys} {hist : Key → HistSys} {k : Key} {t : Tid} {r : List Nat × Nat × F64}
    {h : HistSys} (I : BaseInv c le ev b s hist) (hs : HistStep le (hist k) (.sample t r) h) :
    BaseInv c le ev b s (Function.update hist k h) := by
  obtain ⟨hpk, hpk'⟩ : (∀ x, (hist k).pc t ≠ .added x) ∧ h.pc t = .idle := by
    cases hs with
    | unlockWrite _ out inf sum hp => exact ⟨fun x h => (by rw [hp] at h; cases h), Function.update_self ..⟩
  have hoth : ∀ u, u ≠ t → h.pc u = (hist k).pc u := fun u hu => hist_other hs hu
  obtain ⟨htr, H⟩ := I.hv
  refine ⟨⟨htr, H.exec, H.vec, fun k' u => ?_, fun k' us hm => ?_, H.gone⟩, I.heap, I.own, I.ids, I.lab, I.seen,
    pcRel_hist I.pc hoth hpk (fun x h => by rw [hpk'] at h; cases h), val_hist I.val hoth fun x hx => by rw [hpk'] at hx; cases hx⟩
  · show Busy _ k' u ((Function.update hist k h k').pc u)
    by_cases hk : k' = k
    · subst hk
      rw [Function.update_self]
      by_cases hu : u = t
      · subst hu; exact .inl hpk'
      · rw [hoth u hu]; exact H.busy k' u
    · rw [Function.update_of_ne hk]; exact H.busy k' u
  · obtain ⟨tr, h1, h2, h3⟩ := H.hist k' us hm
    by_cases hk : k' = k
    · subst hk
      refine ⟨tr ++ [.sample t r], ?_, ?_, ?_⟩
      · show Exec _ _ _ (Function.update hist k' h k')
        rw [Function.update_self]
        exact h1.snoc hs
      · rw [sums_append]; simpa [sums] using h2
      · rw [dones_append]; simpa [dones] using h3
    · refine ⟨tr, ?_, h2, h3⟩
      show Exec _ _ _ (Function.update hist k h k')
      rw [Function.update_of_ne hk]
      exact h1

theorem d_step {tr : List EEvent} {a : ESys} {s s' : DSys} {e : DEvent} (I : DInv m c ryu le cap tr a s)
    (hs : DStep m c ryu le s e s') : ∃ part a', DShows e part ∧ Exec (EStep m c ryu le) a part a' ∧
      DInv m c ryu le cap (tr ++ part) a' s' := by
  have hat := congrFun I.at'
  cases hs with
  | @top e x hs he hq =>
    cases hs with
    | @run t e x h hs ht hf =>
      obtain ⟨e', b', g1, g2, g3⟩ := lift_base I.base hs ht (hq t ht) (plain_of he)
      refine ⟨[.base e'], { a with base := b' }, g2.shows, I.next (.run (by rw [hat]; exact h) g1 (g2.of ht) ?_) g3 I.at' I.lock I.enc⟩
      exact follows_lift I.base.same g3.same (I.base.pc_idle (hq t ht)) g2 hf
    | @call t r k h hp =>
      refine ⟨_, _, .top _, I.same (.call (by rw [hat]; exact h) (by rw [I.base.pc_idle (hq t rfl)]; exact hp)) (by simp) I.base ?_ I.lock I.enc⟩
      simp only [I.at']
    | @lock t h hl =>
      refine ⟨_, _, .top _, I.same (.lock (by rw [hat]; exact h) (by rw [I.lock]; exact hl)) (by simp) I.base ?_ rfl I.enc⟩
      simp only [I.at']
    | @giveUp t x h hs =>
      obtain ⟨e', b', g1, g2, g3⟩ := lift_base I.base hs (t := t) rfl (hq t rfl) trivial
      obtain rfl := like_eq g2 (by simp)
      refine ⟨_, _, .top _, I.next (.giveUp (by rw [hat]; exact h) g1) g3 ?_ I.lock I.enc⟩
      simp only [I.at']
    | @head t i x enc h hs hh =>
      obtain ⟨e', b', g1, g2, g3⟩ := lift_base I.base hs (t := t) rfl (hq t rfl) (plain_of he)
      obtain rfl := like_eq g2 (by cases i <;> simp)
      refine ⟨_, _, .top _, I.next (.head (by rw [hat]; exact h) g1 (by rw [I.enc]; exact hh)) g3 ?_ I.lock rfl⟩
      simp only [I.at']
    | @headCrash t i o enc h hh ho =>
      refine ⟨_, _, .top _, I.same (.headCrash (by rw [hat]; exact h) (by rw [I.enc]; exact hh) ho) (by simp) I.base ?_ I.lock rfl⟩
      simp only [I.at']
    | @pass t i e x h hs ht hc =>
      obtain ⟨e', b', g1, g2, g3⟩ := lift_base I.base hs ht (hq t ht) (plain_of he)
      obtain rfl := like_eq g2 (by
        rintro u acc he
        cases he
        exact hc)
      exact ⟨_, { a with base := b' }, .top _, I.next (.pass (by rw [hat]; exact h) g1 ht (collects_lift I.base.same g3.same hc)) g3 I.at' I.lock I.enc⟩
    | @entry t i k g us x enc h hs hh =>
      obtain ⟨e', b', g1, g2, g3⟩ := lift_base I.base hs (t := t) rfl (hq t rfl) (plain_of he)
      obtain rfl := like_eq g2 (by cases i <;> simp)
      exact ⟨_, _, .top _, I.next (.entry (by rw [hat]; exact h) g1 (by rw [I.enc]; exact hh)) g3 I.at' I.lock rfl⟩
    | @entryCrash t i k g us x o enc h hs hh ho =>
      have hi : i ≠ .duration := by rintro rfl; exact he h
      obtain ⟨e', b', g1, g2, g3⟩ := lift_base I.base hs (t := t) rfl (hq t rfl) (by cases i <;> first | trivial | exact absurd rfl hi)
      obtain rfl := like_eq g2 (by cases i <;> simp)
      refine ⟨_, _, .top _, I.same (.entryCrash (by rw [hat]; exact h) g1 (by rw [I.enc]; exact hh) ho) (by simp) I.base ?_ I.lock rfl⟩
      simp only [I.at']
    | @next t i acc x h hs =>
      obtain ⟨e', b', g1, g2, g3⟩ := lift_base I.base hs (t := t) rfl (hq t rfl) (plain_of he)
      rcases g2 with rfl | ⟨u, acc₁, acc', h1, rfl, h2⟩
      · refine ⟨_, _, .top _, I.next (.next (by rw [hat]; exact h) g1) g3 ?_ I.lock I.enc⟩
        simp only [I.at']
      · cases h1
        refine ⟨_, _, .ended _ _ acc' h2, I.next (.next (by rw [hat]; exact h) g1) g3 ?_ I.lock I.enc⟩
        simp only [I.at']
    | @finish t out enc h hh =>
      refine ⟨_, _, .top _, I.same (.finish (by rw [hat]; exact h) (by rw [I.enc]; exact hh)) (by simp) I.base ?_ rfl rfl⟩
      simp only [I.at']
    | @answer t out x h hs =>
      obtain ⟨e', b', g1, g2, g3⟩ := lift_base I.base hs (t := t) rfl (hq t rfl) trivial
      obtain rfl := like_eq g2 (by simp)
      refine ⟨_, _, .top _, I.next (.answer (by rw [hat]; exact h) g1) g3 ?_ I.lock I.enc⟩
      simp only [I.at']
  | @insert t k x hs hq =>
    cases hs with
    | @run t' _ x h hs ht hf =>
      have ht : t = t' := ht
      subst ht
      obtain ⟨b', g1, g2⟩ := lift_insert I.base hs hq
      refine ⟨_, { a with base := b' }, .top _, I.next (.run (by rw [hat]; exact h) g1 rfl ?_) g2 I.at' I.lock I.enc⟩
      intro r k'
      show a.base.pc t ≠ _
      rw [I.base.pc_idle hq]
      exact hf r k'
    | pass h hs ht hc => exact hc.elim
  | @observe t r k st e h hp ho hi hg hq hs ht h0 h1 hd hn =>
    by_cases hsum : ∃ u x, e = .summed u x
    · obtain ⟨u, x, rfl⟩ := hsum
      have ht : u = t := ht
      subst ht
      obtain ⟨d, b', g1, g2, g3, g4, g5⟩ := lift_summed I.base hp hi hg hq hs
      refine ⟨_, { a with base := b' }, .recorded u k x d g1 g2, I.next (.run (by rw [hat]; exact ho) g3 rfl ?_) g5 I.at' I.lock I.enc⟩
      intro r k'
      show a.base.pc u ≠ _
      rw [g4]; simp
    · have hno : ∀ u x, e ≠ .summed u x := fun u x h => hsum ⟨u, x, h⟩
      exact ⟨[], a, .inside _ _ _ hno, I.stay (lift_observe I.base hi hg hq hs ht h0 h1 hd hn hno) rfl rfl rfl⟩
  | @observed t r k st x h hp ho hi hg hq hs =>
    exact ⟨[], a, .inside _ _ _ (by simp), I.stay (lift_observed I.base hp hi hg hq hs) rfl rfl rfl⟩
  | @sampling t k e h i j acc snap us g hp hc hk hg hs ht h1 =>
    obtain ⟨g1, g2⟩ := lift_sampling I.base hc hk hs ht h1
    exact ⟨[], a, .inside _ _ _ g2, I.stay g1 rfl rfl rfl⟩
  | @entry t k g r h x enc hp hs hx he =>
    obtain ⟨us, b', g1, g2, g3⟩ := lift_entry I.base hx hs
    refine ⟨_, _, .shown t k g us, I.next (.entry (i := .duration) (enc := enc) (by rw [hat]; exact hp) g1 ?_) g3 I.at' I.lock rfl⟩
    rw [Vec.entry, g2, I.enc]; exact he
  | @entryCrash t k g r h x o enc hp hs hx he ho =>
    obtain ⟨us, b', g1, g2, g3⟩ := lift_entry I.base hx hs
    refine ⟨_, _, .top _, I.same (.entryCrash (i := .duration) (enc := enc) (by rw [hat]; exact hp) g1 ?_ ho) (by simp) (lift_lost I.base hs) ?_ I.lock rfl⟩
    · rw [Vec.entry, g2, I.enc]; exact he
    · simp only [I.at']

theorem d_inv {tr : List DEvent} {s : DSys} (h : Exec (DStep m c ryu le) (.new cap le.length) tr s) :
    ∃ parts a, List.Forall₂ DShows tr parts ∧ DInv m c ryu le cap parts.flatten a s := by
  induction h with
  | nil =>
    refine ⟨[], .new cap, .nil, .nil, ⟨⟨[], .nil, ?_, fun k t => .inl rfl, ?_, fun _ _ => rfl⟩, rfl, fun _ _ => rfl, rfl, rfl, rfl,
      fun t => .inr ⟨?_, rfl⟩, ?_⟩, rfl, rfl, rfl⟩
    · rfl
    · intro k us hm; cases hm
    · intro k x hx; cases hx
    · intro t k x hx; cases hx
  | snoc _ hs ih =>
    obtain ⟨parts, a, h1, h2⟩ := ih
    obtain ⟨part, a', h3, _, h4⟩ := d_step h2 hs
    refine ⟨parts ++ [part], a', ?_, ?_⟩
    · exact List.rel_append h1 (.cons h3 .nil)
    · simpa using h4

end Measured.Server
