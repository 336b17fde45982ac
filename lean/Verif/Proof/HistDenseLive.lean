import Verif.Spec.HistDenseLive
import Verif.Props.HistDense
import Verif.Props.DenseConc
import Verif.Proof.HistVecLive

/-! Dense vectors of histograms: somebody can always go on, and going on comes to an end. -/

namespace Measured
open Conc Spec

def dTid {U : Type} : DEvent U → Tid
  | .startGet t _ | .init t _ _ | .acquired t _ _ | .update t _ _ _ | .sync t _ | .startPass t | .skip t _ | .emit t _ _
  | .endPass t | .panic t | .silent t => t

theorem dstep_other {U : Type} {n : Nat} {s v : DSys U} {e : DEvent U} (hs : DStep n s e v) {u : Tid} (hu : u ≠ dTid e) :
    v.pc u = s.pc u ∧ v.refs u = s.refs u := by
  cases hs <;> refine ⟨?_, ?_⟩ <;> first | rfl | exact Function.update_of_ne hu _ _

theorem dstep_sync {U : Type} {n : Nat} {s v : DSys U} {t u : Tid} (hs : DStep n s (.sync t u) v) (w : Tid) :
    v.pc w = s.pc w ∧ v.refs w = s.refs w := by
  cases hs; exact ⟨rfl, rfl⟩

/-- What a thread that is busy with histogram `o` does to the vector. -/
def HDBusy (n : Nat) (v : DSys Empty) (o : Nat) (t : Tid) (p : HistPc) : Prop :=
  p = .idle ∨ (p.ofSampler = false ∧ v.pc t = .idle ∧ ∃ i, (i, o) ∈ v.refs t) ∨
    (p.ofSampler = true ∧ ∃ i, i < n ∧ v.pc t = .pass i ∧ v.cells i = .done o)

theorem HDBusy.keep {n : Nat} {v v' : DSys Empty} {o : Nat} {t : Tid} {p : HistPc} (h : HDBusy n v o t p)
    (hp : v'.pc t = v.pc t) (hr : v'.refs t = v.refs t) (hc : ∀ i o, v.cells i = .done o → v'.cells i = .done o) :
    HDBusy n v' o t p := by
  rcases h with h | ⟨h1, h2, i, h3⟩ | ⟨h1, i, h2, h3, h4⟩
  · exact .inl h
  · exact .inr (.inl ⟨h1, by rw [hp, h2], i, by rw [hr]; exact h3⟩)
  · exact .inr (.inr ⟨h1, i, h2, by rw [hp, h3], hc i o h4⟩)

theorem free_idle {s : HDSys} {e : DEvent Empty} (h : s.Free e) : (∃ t u, e = .sync t u) ∨ ∀ o, (s.hist o).pc (dTid e) = .idle := by
  cases e <;> first | exact .inr h | exact .inl ⟨_, _, rfl⟩ | exact h.elim

theorem hd_busy {n : Nat} {le : List F64} {tr : List HDEvent} {s : HDSys}
    (h : Exec (HDStep n le) (HDSys.new le.length) tr s) :
    (∀ o t, HDBusy n s.vec o t ((s.hist o).pc t)) ∧
      ∀ t o o', (s.hist o).pc t ≠ .idle → (s.hist o').pc t ≠ .idle → o = o' := by
  induction h with
  | nil => exact ⟨fun _ _ => .inl rfl, fun t o o' h => absurd rfl h⟩
  | @snoc tr s e s' hex hs ih =>
    have hi := d_inv (hd_inv hex).exec
    obtain ⟨hb, hu⟩ := ih
    cases hs with
    | vec e v hv hq =>
      refine ⟨fun o t => ?_, hu⟩
      have hc := (dstep_cells hi hv).1
      rcases free_idle hq with ⟨a, b, rfl⟩ | hf
      · exact (hb o t).keep (dstep_sync hv t).1 (dstep_sync hv t).2 hc
      · by_cases ht : t = dTid e
        · subst ht; exact .inl (hf o)
        · exact (hb o t).keep (dstep_other hv ht).1 (dstep_other hv ht).2 hc
    | observe t i o e h hh ht hp hg hq h0 h1 =>
      subst ht
      refine ⟨fun o' u => ?_, fun u a b ha hb' => ?_⟩
      · show HDBusy n s.vec o' u ((Function.update s.hist o h o').pc u)
        by_cases ho : o' = o
        · subst ho
          rw [Function.update_self]
          by_cases hu' : u = e.tid
          · subst hu'; exact .inr (.inl ⟨h1, hp, i, hg⟩)
          · rw [hist_other hh hu']; exact hb o' u
        · rw [Function.update_of_ne ho]; exact hb o' u
      · have key : ∀ a, (Function.update s.hist o h a).pc u ≠ .idle → (u = e.tid → a = o) ∧
            (u ≠ e.tid → (s.hist a).pc u ≠ .idle) := by
          intro a ha
          by_cases hao : a = o
          · subst hao
            rw [Function.update_self] at ha
            exact ⟨fun _ => rfl, fun hne => by rwa [hist_other hh hne] at ha⟩
          · rw [Function.update_of_ne hao] at ha
            exact ⟨fun hue => absurd (hue ▸ hq a hao) (hue ▸ ha), fun _ => ha⟩
        by_cases hue : u = e.tid
        · rw [(key a ha).1 hue, (key b hb').1 hue]
        · exact hu u a b ((key a ha).2 hue) ((key b hb').2 hue)
    | sampling t i o e h hh ht hp hin hc h1 =>
      subst ht
      have others : ∀ a, (s.hist a).pc e.tid ≠ .idle → a = o := by
        intro a ha
        rcases hb a e.tid with hz | ⟨_, hz, _⟩ | ⟨_, j, _, hz, hz'⟩
        · exact absurd hz ha
        · rw [hp] at hz; cases hz
        · rw [hp] at hz; cases hz; rw [hc] at hz'; cases hz'; rfl
      refine ⟨fun o' u => ?_, fun u a b ha hb' => ?_⟩
      · show HDBusy n s.vec o' u ((Function.update s.hist o h o').pc u)
        by_cases ho : o' = o
        · subst ho
          rw [Function.update_self]
          by_cases hu' : u = e.tid
          · subst hu'; exact .inr (.inr ⟨h1, i, hin, hp, hc⟩)
          · rw [hist_other hh hu']; exact hb o' u
        · rw [Function.update_of_ne ho]; exact hb o' u
      · have key : ∀ a, (Function.update s.hist o h a).pc u ≠ .idle → (u = e.tid → a = o) ∧
            (u ≠ e.tid → (s.hist a).pc u ≠ .idle) := by
          intro a ha
          by_cases hao : a = o
          · subst hao
            rw [Function.update_self] at ha
            exact ⟨fun _ => rfl, fun hne => by rwa [hist_other hh hne] at ha⟩
          · rw [Function.update_of_ne hao] at ha
            exact ⟨fun hue => others a (hue ▸ ha), fun _ => ha⟩
        by_cases hue : u = e.tid
        · rw [(key a ha).1 hue, (key b hb').1 hue]
        · exact hu u a b ((key a ha).2 hue) ((key b hb').2 hue)
    | emit t i o r h v hh hc hv =>
      have hcv := (dstep_cells hi hv).1
      have hp : s.vec.pc t = .pass i := by cases hv; assumption
      have hidle : h.pc t = .idle := by cases hh; exact Function.update_self _ _ _
      have key : ∀ a u, (Function.update s.hist o h a).pc u ≠ .idle → u ≠ t ∧ (s.hist a).pc u ≠ .idle ∧
          (Function.update s.hist o h a).pc u = (s.hist a).pc u := by
        intro a u ha
        by_cases hao : a = o
        · subst hao
          rw [Function.update_self] at ha ⊢
          have hut : u ≠ t := fun hut => ha (hut ▸ hidle)
          rw [hist_other hh (show u ≠ HistEvent.tid (.sample t r) from hut)] at ha ⊢
          exact ⟨hut, ha, rfl⟩
        · rw [Function.update_of_ne hao] at ha ⊢
          refine ⟨?_, ha, rfl⟩
          rintro rfl
          rcases hb a u with hz | ⟨_, hz, _⟩ | ⟨_, j, _, hz, hz'⟩
          · exact ha hz
          · rw [hp] at hz; cases hz
          · rw [hp] at hz; cases hz; rw [hc] at hz'; cases hz'; exact hao rfl
      refine ⟨fun a u => ?_, fun u a b ha hb' => hu u a b (key a u ha).2.1 (key b u hb').2.1⟩
      show HDBusy n v a u ((Function.update s.hist o h a).pc u)
      by_cases ha : (Function.update s.hist o h a).pc u = .idle
      · exact .inl ha
      · obtain ⟨hut, _, he⟩ := key a u ha
        rw [he]
        have := dstep_other hv (u := u) hut
        exact (hb a u).keep this.1 this.2 hcv

theorem hd_progress {n : Nat} {le : List F64} {tr : List HDEvent} {s : HDSys}
    (h : Exec (HDStep n le) (HDSys.new le.length) tr s) (hact : ∃ t, ¬ s.Over t) :
    ∃ e s', HDStep n le s e s' ∧ HDGoes s e s' := by
  have hI := hd_inv h
  have hi := d_inv hI.exec
  obtain ⟨hb, hu⟩ := hd_busy h
  by_cases hbusy : ∃ o t, (s.hist o).pc t ≠ .idle
  · obtain ⟨o, t, hbt⟩ := hbusy
    obtain ⟨htr, hx, _⟩ := hI.hist o
    obtain ⟨e, h', hs, hg⟩ := hist_progress (hist_inv hx).1 ⟨t, hbt⟩
    obtain ⟨hne, hsame⟩ := hist_thread_busy hs hg
    have hupd : HistGoes (s.hist o) (Function.update s.hist o h' o) := by rw [Function.update_self]; exact hg
    rcases hb o e.tid with hb' | ⟨h1, h2, i, h3⟩ | ⟨h1, i, h2, h3, h4⟩
    · exact absurd hb' hne
    · refine ⟨.observe e.tid i e, _, .observe s e.tid i o e h' hs rfl h2 h3 ?_ h1 ?_, ?_⟩
      · intro o' ho
        by_contra hc
        exact ho (hu e.tid o' o hc hne)
      · rcases hsame with h | h
        · rw [h]; rfl
        · rw [h, h1]
      · intro o' ho
        rw [hi.refs _ i o h3] at ho
        cases ho
        exact hupd
    · by_cases hidle : h'.pc e.tid = .idle
      · have hsamp : ∃ r, e = .sample e.tid r := by
          cases hs <;> simp_all [HistEvent.tid, HistPc.ofSampler, HistSys.goto]
        obtain ⟨r, hr⟩ := hsamp
        refine ⟨.emit e.tid i r, _, .emit s e.tid i o r h' _ (hr ▸ hs) h4
          (.emit s.vec e.tid i o [] h3 h2 h4 List.nil_prefix ?_), trivial⟩
        intro k hk
        obtain ⟨o', _, hk'⟩ := hi.know _ i k hk
        refine Nat.le_trans hk' ?_
        have : ∀ l : List Empty, l.length ≤ ([] : List Empty).length := fun l => by
          cases l with
          | nil => exact Nat.le_refl _
          | cons x => exact x.elim
        exact this _
      · refine ⟨.sampling e.tid i e, _, .sampling s e.tid i o e h' hs rfl h3 h2 h4 ?_, fun o' ho => .inr ?_⟩
        · rcases hsame with h | h
          · exact absurd h hidle
          · rw [h, h1]
        · rw [h4] at ho; cases ho; exact hupd
  · have hidle : ∀ o t, (s.hist o).pc t = .idle := fun o t => by
      by_contra hne; exact hbusy ⟨o, t, hne⟩
    obtain ⟨t, ht⟩ := hact
    have ht : ¬ (s.vec.pc t = .idle ∨ s.vec.pc t = .panicked) := fun h => ht ⟨h, fun o => hidle o t⟩
    have vec : ∀ {e : DEvent Empty} {v : DSys Empty}, DStep n s.vec e v → DEvent.goesOn e → (∀ t i us, e ≠ .emit t i us) →
        ∃ e s', HDStep n le s e s' ∧ HDGoes s e s' := by
      intro e v hs hg hne
      refine ⟨.vec e, _, .vec s e v hs ?_, hg⟩
      cases e <;> first | exact fun o => hidle o _ | trivial | exact absurd rfl (hne _ _ _)
    have running : ∀ u i, s.vec.pc u = .init i → ∃ e s', HDStep n le s e s' ∧ HDGoes s e s' := fun u i hp =>
      vec (.create s.vec u i hp) trivial (by intros; simp)
    cases hp : s.vec.pc t with
    | idle => exact absurd (.inl hp) ht
    | panicked => exact absurd (.inr hp) ht
    | check i =>
      cases hk : s.vec.know t i with
      | none => exact vec (.fastMiss s.vec t i hp hk) trivial (by intros; simp)
      | some k =>
        obtain ⟨o, hc, _⟩ := hi.know t i k hk
        exact vec (.fast s.vec t i o hp hc) trivial (by intros; simp)
    | slow i =>
      cases hc : s.vec.cells i with
      | empty => exact vec (.slowRun s.vec t i hp hc) trivial (by intros; simp)
      | running u => exact running u i ((hi.running i u).1 hc)
      | done o => exact vec (.slowDone s.vec t i o hp hc) trivial (by intros; simp)
    | init i => exact running t i hp
    | got i o => exact vec (.created s.vec t i o hp) trivial (by intros; simp)
    | pass i =>
      by_cases hn : i < n
      · cases hk : s.vec.know t i with
        | none => exact vec (.skip s.vec t i hp hn hk) trivial (by intros; simp)
        | some k =>
          obtain ⟨o, hc, _⟩ := hi.know t i k hk
          refine ⟨.sampling t i (.silent t), _, .sampling s t i o _ _ (.startSample _ t (hidle o t)) rfl hp hn hc ?_,
            fun o' _ => .inl (hidle o' t)⟩
          simp [HistSys.goto, HistPc.ofSampler]
      · exact vec (.endPass s.vec t i hp (by omega)) trivial (by intros; simp)

/-! ## Going on comes to an end -/

/-- The steps that a call on the vector still needs. -/
def dRank (n : Nat) : DPc → Nat
  | .idle | .panicked => 0
  | .got _ _ => 1
  | .init _ => 2
  | .slow _ => 3
  | .check _ => 4
  | .pass i => n - i + 1

def dWork (n : Nat) (T : List Tid) (v : DSys Empty) : Nat := (T.map fun t => dRank n (v.pc t)).sum

def hdWork (n L : Nat) (T : List Tid) (s : HDSys) : Nat :=
  (L + 6) * (T.length + 1) * dWork n T s.vec + ∑ o ∈ Finset.range s.vec.next, hvHist L T (s.hist o)

/-- Threads outside `T` do nothing. -/
def OnlyIn (T : List Tid) (v : DSys Empty) : Prop := ∀ t, t ∉ T → v.pc t = .idle ∧ v.refs t = []

theorem d_support {n : Nat} {tr : List (DEvent Empty)} {v : DSys Empty} (h : Exec (DStep n) DSys.new tr v) :
    ∃ T : List Tid, T.Nodup ∧ OnlyIn T v := by
  induction h with
  | nil => exact ⟨[], List.nodup_nil, fun _ _ => ⟨rfl, rfl⟩⟩
  | @snoc tr s e s' _ hs ih =>
    obtain ⟨T, hn, hT⟩ := ih
    by_cases he : dTid e ∈ T
    · refine ⟨T, hn, fun t ht => ?_⟩
      obtain ⟨h1, h2⟩ := dstep_other hs (u := t) (fun h => ht (h ▸ he))
      rw [h1, h2]; exact hT t ht
    · refine ⟨dTid e :: T, List.nodup_cons.2 ⟨he, hn⟩, fun t ht => ?_⟩
      rw [List.mem_cons, not_or] at ht
      obtain ⟨h1, h2⟩ := dstep_other hs ht.1
      rw [h1, h2]; exact hT t ht.2

theorem dstep_work {n : Nat} {T : List Tid} (hn : T.Nodup) {s v : DSys Empty} {e : DEvent Empty} (hT : OnlyIn T s)
    (hs : DStep n s e v) (hg : DEvent.goesOn e) : dWork n T v + 1 ≤ dWork n T s ∧ OnlyIn T v := by
  have hact : s.pc (dTid e) ≠ .idle ∧ dRank n (v.pc (dTid e)) + 1 ≤ dRank n (s.pc (dTid e)) := by
    cases hs with
    | fast t i o h hc => simp [dTid, DSys.goto, DSys.learn, DSys.hand, h, dRank]
    | fastMiss t i h hk => simp [dTid, DSys.goto, h, dRank]
    | slowRun t i h hc => simp [dTid, DSys.goto, h, dRank]
    | slowDone t i o h hc => simp [dTid, DSys.goto, DSys.learn, DSys.hand, h, dRank]
    | create t i h => simp [dTid, DSys.goto, DSys.learn, h, dRank]
    | created t i o h => simp [dTid, DSys.goto, DSys.hand, h, dRank]
    | skip t i h hi hk => simp [dTid, DSys.goto, h, dRank]; omega
    | emit t i o us h hi hc hp hk => simp [dTid, DSys.goto, DSys.learn, h, dRank]; omega
    | abort t i h => simp [dTid, DSys.goto, h, dRank]
    | endPass t i h hi => simp [dTid, DSys.goto, h, dRank]
    | _ => exact hg.elim
  have hin : dTid e ∈ T := by
    by_contra hc
    exact hact.1 (hT _ hc).1
  have := sum_swap hn (f := fun t => dRank n (s.pc t)) (g := fun t => dRank n (v.pc t)) hin (fun u hu => by
    rw [(dstep_other hs hu).1])
  refine ⟨?_, fun t ht => ?_⟩
  · unfold dWork; have := hact.2; omega
  · obtain ⟨h1, h2⟩ := dstep_other hs (u := t) (fun h => ht (h ▸ hin))
    rw [h1, h2]; exact hT t ht

theorem hvHist_new (L : Nat) (T : List Tid) : hvHist L T (HistSys.new L) = T.length * (L + 5) := by
  simp [hvHist, HistSys.new, histWork, HistPc.ofSampler]

theorem hd_decreases {n : Nat} {le : List F64} {T : List Tid} (hn : T.Nodup) {tr : List HDEvent} {s s' : HDSys}
    {e : HDEvent} (hex : Exec (HDStep n le) (HDSys.new le.length) tr s) (hT : OnlyIn T s.vec) (hs : HDStep n le s e s')
    (hg : HDGoes s e s') : hdWork n le.length T s' + 1 ≤ hdWork n le.length T s ∧ OnlyIn T s'.vec := by
  have hI := hd_inv hex
  have hi := d_inv hI.exec
  obtain ⟨hb, _⟩ := hd_busy hex
  have hth : ∀ o t, t ∉ T → (s.hist o).pc t = .idle := by
    intro o t ht
    rcases hb o t with hb | ⟨_, _, i, hr⟩ | ⟨_, i, _, hp, _⟩
    · exact hb
    · rw [(hT t ht).2] at hr; cases hr
    · rw [(hT t ht).1] at hp; cases hp
  have hinv : ∀ o, ∃ htr, HistInv le htr (s.hist o) := fun o => by
    obtain ⟨htr, hx, _⟩ := hI.hist o
    exact ⟨htr, (hist_inv hx).1⟩
  have hW : ∀ {a b : Nat}, a + 1 ≤ b → (le.length + 6) * (T.length + 1) * a + (le.length + 6) * (T.length + 1) ≤
      (le.length + 6) * (T.length + 1) * b := fun h => by
    have := Nat.mul_le_mul_left ((le.length + 6) * (T.length + 1)) h
    rwa [Nat.mul_add, Nat.mul_one] at this
  have hpos : (le.length + 5) * T.length + (le.length + 6) ≤ (le.length + 6) * (T.length + 1) := by
    have : (le.length + 6) * (T.length + 1) = (le.length + 5) * T.length + T.length + (le.length + 6) := by ring
    omega
  unfold hdWork
  cases hs with
  | vec e v hv hq =>
    obtain ⟨h1, h2⟩ := dstep_work hn hT hv hg
    refine ⟨?_, h2⟩
    have h3 := hW h1
    have hsum : ∑ o ∈ Finset.range v.next, hvHist le.length T (s.hist o) ≤
        (∑ o ∈ Finset.range s.vec.next, hvHist le.length T (s.hist o)) + (le.length + 5) * T.length := by
      cases hv with
      | create t i hp =>
        show ∑ o ∈ Finset.range (s.vec.next + 1), _ ≤ _
        rw [Finset.sum_range_succ, hI.fresh _ (Nat.le_refl _), hvHist_new, Nat.mul_comm]
      | _ => exact Nat.le_add_right _ _
    dsimp only
    omega
  | observe t i o e h hh ht hp hgd hq h0 h1 =>
    subst ht
    have hc := hi.refs _ i o hgd
    have hg : HistGoes (s.hist o) h := by
      have : HistGoes (s.hist o) (Function.update s.hist o h o) := hg o hc
      rwa [Function.update_self] at this
    obtain ⟨htr, hI'⟩ := hinv o
    have hd := hvHist_goes hn hI' (hth o) hh hg (by rw [h0, h1])
    have hsum := sum_hist (Finset.mem_range.2 (hi.done i o hc).1) (hist := s.hist) h (hvHist le.length T)
    refine ⟨?_, hT⟩
    dsimp only
    omega
  | sampling t i o e h hh ht hp hin hc h1 =>
    subst ht
    have htT : e.tid ∈ T := by
      by_contra ht
      rw [(hT _ ht).1] at hp; cases hp
    have hsum := sum_hist (Finset.mem_range.2 (hi.done i o hc).1) (hist := s.hist) h (hvHist le.length T)
    refine ⟨?_, hT⟩
    suffices hvHist le.length T h + 1 ≤ hvHist le.length T (s.hist o) by
      dsimp only
      omega
    by_cases hidle : (s.hist o).pc e.tid = .idle
    · have heq : h = (s.hist o).goto e.tid .wantWrite := by
        cases hh <;> simp_all [HistEvent.tid, HistPc.ofSampler, HistSys.goto]
      have := hvHist_goto (n := le.length) hn (h := s.hist o) htT .wantWrite
      rw [← heq, hidle] at this
      simp only [histWork, HistPc.ofSampler, if_true] at this
      simp at this
      omega
    · have hg : HistGoes (s.hist o) h := by
        have : (s.hist o).pc e.tid = .idle ∨ HistGoes (s.hist o) (Function.update s.hist o h o) := hg o hc
        rw [Function.update_self] at this
        exact this.resolve_left hidle
      obtain ⟨htr, hI'⟩ := hinv o
      refine hvHist_goes hn hI' (hth o) hh hg ?_
      rcases (hist_thread_busy hh hg).2 with h' | h'
      · rw [h'] at h1; cases h1
      · exact h'
  | emit t i o r h v hh hc hv =>
    obtain ⟨h1, h2⟩ := dstep_work hn hT hv trivial
    refine ⟨?_, h2⟩
    have hp : s.vec.pc t = .pass i := by cases hv; assumption
    have htT : t ∈ T := by
      by_contra ht
      rw [(hT _ ht).1] at hp; cases hp
    have hnext : v.next = s.vec.next := by cases hv; rfl
    have hsum := sum_hist (Finset.mem_range.2 (hi.done i o hc).1) (hist := s.hist) h (hvHist le.length T)
    have hd : hvHist le.length T h = hvHist le.length T (s.hist o) + (le.length + 4) := by
      cases hh with
      | unlockWrite _ out inf sum hp =>
        have := hvHist_goto (n := le.length) hn (h := s.hist o) htT .idle
        rw [hp] at this
        simp [histWork, HistPc.ofSampler] at this
        omega
    have h3 := hW h1
    dsimp only
    rw [hnext]
    omega

end Measured
