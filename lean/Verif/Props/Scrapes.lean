import Verif.Spec.Scrapes
import Verif.Props.Registry
import Verif.Props.Live
import Verif.Props.VecLive
import Verif.Proof.HistTwice

/-!
# C76: two scrapes of a whole group in use, one after the other
-/

namespace Measured
open Conc Spec Proto

/-! ## The two scrapes are scrapes as in C71 -/

theorem dense_prefix_all {C : Type} {i : Nat} {us : List C} {a b : List (DEvent C)} (h : us <+: denseUpdates i a) :
    us <+: denseUpdates i (a ++ b) := by
  rw [denseUpdates_append]; exact h.trans (List.prefix_append _ _)

theorem twice_first {t t' : Tid} {p : Part} {tr : List p.E} {f f' : ScrapeField} {c : Claim} {was : c.K → c.k.Val → Prop}
    {there kept : c.K → Prop} (h : FieldTwice t t' p tr f f' c was there kept) : FieldInUse t p tr f c := by
  cases h with
  | counter v0 v w _ tr₁ tr₂ tr₃ name docs htr hfit =>
    subst htr
    rw [List.append_assoc, List.cons_append]
    exact .counter v0 v tr₁ _ name docs hfit
  | gauge v0 v w _ tr₁ tr₂ tr₃ name docs htr =>
    subst htr
    rw [List.append_assoc, List.cons_append]
    exact .gauge v0 v tr₁ _ name docs
  | float v0 v w _ tr₁ tr₂ tr₃ name docs htr =>
    subst htr
    rw [List.append_assoc, List.cons_append]
    exact .float v0 v tr₁ _ name docs
  | histogram le out out' inf inf' sum sum' _ tr₁ tr₂ tr₃ name docs htr hle hnan hok hfit =>
    subst htr
    rw [completed_append] at hok hfit
    rw [List.append_assoc, List.cons_append]
    exact .histogram le out inf sum tr₁ _ name docs hle hnan (fun x hx => hok x (List.mem_append_left _ hx))
      (by rw [List.length_append] at hfit; omega)
  | sparse m K inst sc k labels tr tr₁ a mid b tr₃ acc acc' name docs htr hc hk hone hone' hok hfit =>
    have he : tr = tr₁ ++ .startPass t :: a ++ .endPass t acc :: (mid ++ .startPass t' :: b ++ .endPass t' acc' :: tr₃) := by
      rw [htr]; simp
    clear htr
    subst he
    refine .sparse m K inst sc k labels tr₁ a _ acc name docs hc hk hone (fun v x u hu => hok v x u ?_)
      fun p x us hp => hfit _ x us ?_
    · simp only [List.mem_append, List.mem_cons] at hu ⊢; tauto
    · obtain ⟨q, rfl⟩ := hp
      exact ⟨q ++ .endPass t acc :: (mid ++ .startPass t' :: b ++ .endPass t' acc' :: tr₃), by simp⟩
  | dense m cells k labels tr tr₁ a mid b tr₃ name docs htr hk hone hone' hinf hok hlab hfit =>
    have he : tr = tr₁ ++ .startPass t :: a ++ .endPass t :: (mid ++ .startPass t' :: b ++ .endPass t' :: tr₃) := by
      rw [htr]; simp
    clear htr
    subst he
    refine .dense m cells k labels tr₁ a _ name docs hk hone (fun v x o u hu => hok v x o u ?_) hlab
      fun i us hp => hfit i us (dense_prefix_all hp)
    simp only [List.mem_append, List.mem_cons] at hu ⊢; tauto
  | labelled m m' S V D d sc h inv le valid k labels tr tr₁ a mid b tr₃ acc acc' name docs htr L hl hf hh hc hk hone hone' hok hlab
      hfit =>
    have he : tr = tr₁ ++ .vec (.startPass t) :: a ++ .vec (.endPass t acc) ::
        (mid ++ .vec (.startPass t') :: b ++ .vec (.endPass t' acc') :: tr₃) := by
      rw [htr]; simp
    clear htr
    subst he
    refine .labelled m m' S V D d sc h inv le valid k labels tr₁ a _ acc name docs L hl hf hh hc hk hone
      (fun v x u hu => hok v x u ?_) hlab fun p x us hp => hfit _ x us ?_
    · simp only [List.mem_append, List.mem_cons] at hu ⊢; tauto
    · obtain ⟨q, hq⟩ := hp
      refine ⟨q ++ .endPass t acc :: vecEvents (mid ++ .vec (.startPass t') :: b ++ .vec (.endPass t' acc') :: tr₃), ?_⟩
      simp only [vecEvents_append, vecEvents, ← hq, List.append_assoc, List.cons_append]
  | sparseHist K inst sc le labels tr tr₁ a mid b tr₃ acc acc' name docs htr hc hle hnan hone hone' hok hfit =>
    have he : tr = tr₁ ++ .vec (.startPass t) :: a ++ .vec (.endPass t acc) ::
        (mid ++ .vec (.startPass t') :: b ++ .vec (.endPass t' acc') :: tr₃) := by
      rw [htr]; simp
    clear htr
    subst he
    refine .sparseHist K inst sc le labels tr₁ a _ acc name docs hc hle hnan hone (fun v x u y hu => hok v x u y ?_)
      fun p x xs hp => hfit _ x xs ?_
    · simp only [List.mem_append, List.mem_cons] at hu ⊢; tauto
    · obtain ⟨q, rfl⟩ := hp
      exact ⟨q ++ .vec (.endPass t acc) :: (mid ++ .vec (.startPass t') :: b ++ .vec (.endPass t' acc') :: tr₃), by simp⟩
  | denseHist cells le labels tr tr₁ a mid b tr₃ name docs htr hle hnan hone hone' hinf hok hlab hfit =>
    have he : tr = tr₁ ++ .vec (.startPass t) :: a ++ .vec (.endPass t) ::
        (mid ++ .vec (.startPass t') :: b ++ .vec (.endPass t') :: tr₃) := by
      rw [htr]; simp
    clear htr
    subst he
    refine .denseHist cells le labels tr₁ a _ name docs hle hnan hone (fun v x u y hu => hok v x u y ?_) hlab fun i => ?_
    · simp only [List.mem_append, List.mem_cons] at hu ⊢; tauto
    · refine Nat.lt_of_le_of_lt ?_ (hfit i)
      simp only [hdFinished_append, hdFinished, List.length_append]; omega

theorem twice_second {t t' : Tid} {p : Part} {tr : List p.E} {f f' : ScrapeField} {c : Claim} {was : c.K → c.k.Val → Prop}
    {there kept : c.K → Prop} (h : FieldTwice t t' p tr f f' c was there kept) :
    FieldInUse t' p tr f' (c.again was there) := by
  cases h with
  | counter v0 v w _ tr₁ tr₂ tr₃ name docs htr hfit hfit' =>
    subst htr
    exact .counter v0 w _ _ name docs hfit'
  | gauge v0 v w _ tr₁ tr₂ tr₃ name docs htr =>
    subst htr
    exact .gauge v0 w _ _ name docs
  | float v0 v w _ tr₁ tr₂ tr₃ name docs htr =>
    subst htr
    exact .float v0 w _ _ name docs
  | histogram le out out' inf inf' sum sum' _ tr₁ tr₂ tr₃ name docs htr hle hnan hok hfit =>
    subst htr
    have hc : completed (tr₁ ++ .sample t (out, inf, sum) :: tr₂) = completed (tr₁ ++ tr₂) := by
      rw [completed_append, completed_append]; rfl
    rw [← hc] at hok hfit ⊢
    exact .histogram le out' inf' sum' _ _ name docs hle hnan hok hfit
  | sparse m K inst sc k labels _ tr₁ a mid b tr₃ acc acc' name docs htr hc hk hone hone' hok hfit =>
    subst htr
    refine .sparse m K inst sc k labels _ b _ acc' name docs hc hk hone' (fun v x u hu => hok v x u ?_)
      fun p x us hp => hfit _ x us ?_
    · simp only [List.mem_append, List.mem_cons] at hu ⊢; tauto
    · obtain ⟨q, rfl⟩ := hp
      exact ⟨q ++ .endPass t' acc' :: tr₃, by simp⟩
  | dense m cells k labels _ tr₁ a mid b tr₃ name docs htr hk hone hone' hinf hok hlab hfit =>
    subst htr
    refine .dense m cells k labels _ b _ name docs hk hone' (fun v x o u hu => hok v x o u ?_) hlab
      fun i us hp => hfit i us (dense_prefix_all hp)
    simp only [List.mem_append, List.mem_cons] at hu ⊢; tauto
  | labelled m m' S V D d sc h inv le valid k labels _ tr₁ a mid b tr₃ acc acc' name docs htr L hl hf hh hc hk hone hone' hok hlab
      hfit =>
    subst htr
    refine .labelled m m' S V D d sc h inv le valid k labels _ b _ acc' name docs L hl hf hh hc hk hone'
      (fun v x u hu => hok v x u ?_) hlab fun p x us hp => hfit _ x us ?_
    · simp only [List.mem_append, List.mem_cons] at hu ⊢; tauto
    · obtain ⟨q, hq⟩ := hp
      refine ⟨q ++ .endPass t' acc' :: vecEvents tr₃, ?_⟩
      simp only [vecEvents_append, vecEvents, ← hq, List.append_assoc, List.cons_append]
  | sparseHist K inst sc le labels _ tr₁ a mid b tr₃ acc acc' name docs htr hc hle hnan hone hone' hok hfit =>
    subst htr
    refine .sparseHist K inst sc le labels _ b _ acc' name docs hc hle hnan hone' (fun v x u y hu => hok v x u y ?_)
      fun p x xs hp => hfit _ x xs ?_
    · simp only [List.mem_append, List.mem_cons] at hu ⊢; tauto
    · obtain ⟨q, rfl⟩ := hp
      exact ⟨q ++ .vec (.endPass t' acc') :: tr₃, by simp⟩
  | denseHist cells le labels _ tr₁ a mid b tr₃ name docs htr hle hnan hone hone' hinf hok hlab hfit =>
    subst htr
    refine .denseHist cells le labels _ b _ name docs hle hnan hone' (fun v x u y hu => hok v x u y ?_) hlab fun i => ?_
    · simp only [List.mem_append, List.mem_cons] at hu ⊢; tauto
    · refine Nat.lt_of_le_of_lt ?_ (hfit i)
      simp only [hdFinished_append, hdFinished, List.length_append]; omega

/-! ## The entries of one field -/

theorem sumUp_later (k : MKind) {us us' : List k.Call} (h : us <+: us') :
    k.Later (sumUp k.apply k.zero us) (sumUp k.apply k.zero us') := by
  obtain ⟨vs, rfl⟩ := h
  cases k with
  | counter =>
    show sumUp CounterCall.apply 0 us ≤ sumUp CounterCall.apply 0 (us ++ vs)
    unfold sumUp
    rw [List.foldl_append]
    generalize List.foldl _ 0 us = v
    induction vs generalizing v with
    | nil => exact Nat.le_refl _
    | cons u vs ih => exact (Nat.le_add_right _ _).trans (ih _)
  | gauge => trivial
  | float => trivial
  | histogram le =>
    show sumUp HistCall.apply [] us <+: sumUp HistCall.apply [] (us ++ vs)
    unfold sumUp
    rw [List.foldl_append]
    generalize List.foldl _ [] us = v
    induction vs generalizing v with
    | nil => exact List.prefix_refl _
    | cons u vs ih => exact (List.prefix_append _ _).trans (ih _)

theorem twice_writes {t t' : Tid} {p : Part} {tr : List p.E} {f f' : ScrapeField} {c : Claim}
    {was : c.K → c.k.Val → Prop} {there kept : c.K → Prop} (h : FieldTwice t t' p tr f f' c was there kept)
    {s : p.S} (he : Exec p.Step p.init tr s) :
    ∃ (l : List (c.K × c.k.Val)) (l' : List (c.K × c.k.Val)), WritesFamily f c l ∧ WritesFamily f' (c.again was there) l' ∧
      ∀ q ∈ l, kept q.1 → ∃ b, (q.1, b) ∈ l' ∧ c.k.Later q.2 b := by
  cases h with
  | counter v0 v w _ tr₁ tr₂ tr₃ name docs htr hfit hfit' hsync hadd hov =>
    subst htr
    have he : Exec IntStep (Mem.new v0) (tr₁ ++ .read t v :: tr₂ ++ .read t' w :: tr₃) s := he
    have he' : Exec IntStep (Mem.new v0) (tr₁ ++ .read t v :: (tr₂ ++ .read t' w :: tr₃)) s := by simpa using he
    refine ⟨_, _, counter_writes he' name docs hfit, counter_writes he name docs hfit', ?_⟩
    rintro q hq _
    rw [List.mem_singleton] at hq
    subst hq
    exact ⟨w, List.mem_singleton.2 rfl, C64_counter he hsync hadd hov⟩
  | gauge v0 v w _ tr₁ tr₂ tr₃ name docs htr =>
    subst htr
    have he : Exec IntStep (Mem.new v0) (tr₁ ++ .read t v :: tr₂ ++ .read t' w :: tr₃) s := he
    have he' : Exec IntStep (Mem.new v0) (tr₁ ++ .read t v :: (tr₂ ++ .read t' w :: tr₃)) s := by simpa using he
    refine ⟨_, _, gauge_writes he' name docs, gauge_writes he name docs, ?_⟩
    rintro q hq _
    rw [List.mem_singleton] at hq
    subst hq
    exact ⟨asI64Wrap w, List.mem_singleton.2 rfl, trivial⟩
  | float v0 v w _ tr₁ tr₂ tr₃ name docs htr =>
    subst htr
    have he : Exec FloatStep (FloatSys.new v0) (tr₁ ++ .read t v :: tr₂ ++ .read t' w :: tr₃) s := he
    have he' : Exec FloatStep (FloatSys.new v0) (tr₁ ++ .read t v :: (tr₂ ++ .read t' w :: tr₃)) s := by simpa using he
    refine ⟨_, _, single_writes .float name docs (.floatGauge v) v _ rfl (float_right v) (C21_read he'),
      single_writes .float name docs (.floatGauge w) w _ rfl (float_right w) (C21_read he), ?_⟩
    rintro q hq _
    rw [List.mem_singleton] at hq
    subst hq
    exact ⟨w, List.mem_singleton.2 rfl, trivial⟩
  | histogram le out out' inf inf' sum sum' _ tr₁ tr₂ tr₃ name docs htr hle hnan hok hfit =>
    subst htr
    have he : Exec (HistStep le) (HistSys.new le.length)
      (tr₁ ++ .sample t (out, inf, sum) :: tr₂ ++ .sample t' (out', inf', sum') :: tr₃) s := he
    have he' : Exec (HistStep le) (HistSys.new le.length)
      (tr₁ ++ .sample t (out, inf, sum) :: (tr₂ ++ .sample t' (out', inf', sum') :: tr₃)) s := by simpa using he
    have hc : completed (tr₁ ++ .sample t (out, inf, sum) :: tr₂) = completed (tr₁ ++ tr₂) := by
      rw [completed_append, completed_append]; rfl
    rw [← hc] at hok hfit ⊢
    have hc' : completed (tr₁ ++ .sample t (out, inf, sum) :: tr₂) = completed tr₁ ++ completed tr₂ := by
      rw [hc, completed_append]
    refine ⟨_, _, hist_writes he' name docs hle hnan (fun x hx => hok x (by rw [hc']; exact List.mem_append_left _ hx))
      (by rw [hc', List.length_append] at hfit; omega), hist_writes he name docs hle hnan hok hfit, ?_⟩
    rintro q hq _
    rw [List.mem_singleton] at hq
    subst hq
    refine ⟨_, List.mem_singleton.2 rfl, ?_⟩
    show (sums tr₁).map Prod.snd <+: (sums (tr₁ ++ _)).map Prod.snd
    rw [sums_append, List.map_append]
    exact List.prefix_append _ _
  | sparse m K inst sc k labels _ tr₁ a mid b tr₃ acc acc' name docs htr hc hk hone hone' hok hfit =>
    subst htr
    have he : Exec (SStep sc) SSys.new
      (tr₁ ++ .startPass t :: a ++ .endPass t acc :: mid ++ .startPass t' :: b ++ .endPass t' acc' :: tr₃) s := he
    have he' : Exec (SStep sc) SSys.new
      (tr₁ ++ .startPass t :: a ++ .endPass t acc :: (mid ++ .startPass t' :: b ++ .endPass t' acc' :: tr₃)) s := by
      simpa using he
    refine ⟨_, _, sparse_writes m k labels he' name docs hc hk hone (fun v x u hu => hok v x u ?_) (fun p x us hp => hfit _ x us ?_),
      sparse_writes m k labels he name docs hc hk hone' (fun v x u hu => hok v x u ?_) (fun p x us hp => hfit _ x us ?_), ?_⟩
    · simp only [List.mem_append, List.mem_cons] at hu ⊢; tauto
    · obtain ⟨q, rfl⟩ := hp
      exact ⟨q ++ .endPass t acc :: (mid ++ .startPass t' :: b ++ .endPass t' acc' :: tr₃), by simp⟩
    · simp only [List.mem_append, List.mem_cons] at hu ⊢; tauto
    · obtain ⟨q, rfl⟩ := hp
      exact ⟨q ++ .endPass t' acc' :: tr₃, by simp⟩
    · rintro ⟨x, v⟩ hq' hkept
      obtain ⟨⟨y, us⟩, hq, e⟩ := List.mem_map.1 hq'
      cases e
      obtain ⟨h1, h2⟩ := C67_sparse hc he hone hone' hq hkept
      obtain ⟨⟨z, us'⟩, hz'⟩ := List.exists_mem_of_length_pos (Nat.lt_of_lt_of_eq Nat.zero_lt_one h1.symm)
      obtain ⟨hz, e⟩ := List.mem_filter.1 hz'
      have e : z = y := by simpa using e
      subst e
      exact ⟨_, List.mem_map.2 ⟨_, hz, rfl⟩, sumUp_later k (h2 us' hz)⟩
  | dense m cells k labels _ tr₁ a mid b tr₃ name docs htr hk hone hone' hinf hok hlab hfit =>
    subst htr
    have he : Exec (DStep cells) DSys.new
      (tr₁ ++ .startPass t :: a ++ .endPass t :: mid ++ .startPass t' :: b ++ .endPass t' :: tr₃) s := he
    have he' : Exec (DStep cells) DSys.new
      (tr₁ ++ .startPass t :: a ++ .endPass t :: (mid ++ .startPass t' :: b ++ .endPass t' :: tr₃)) s := by
      simpa using he
    refine ⟨_, _, dense_writes m k labels he' name docs hk hone (fun v x o u hu => hok v x o u ?_) hlab (fun i us hp => hfit i us ?_),
      dense_writes m k labels he name docs hk hone' (fun v x o u hu => hok v x o u ?_) hlab (fun i us hp => hfit i us ?_), ?_⟩
    · simp only [List.mem_append, List.mem_cons] at hu ⊢; tauto
    · have := dense_prefix_all (b := .endPass t :: (mid ++ .startPass t' :: b ++ .endPass t' :: tr₃)) hp
      simpa using this
    · simp only [List.mem_append, List.mem_cons] at hu ⊢; tauto
    · exact dense_prefix_all hp
    · rintro ⟨i, v⟩ hq' _
      obtain ⟨⟨_, us⟩, hq, e⟩ := List.mem_map.1 hq'
      simp only [Prod.mk.injEq] at e
      obtain ⟨rfl, rfl⟩ := e
      rename_i i
      obtain ⟨us', hj, hp⟩ := dense_again he hone' hinf hq
      exact ⟨_, List.mem_map.2 ⟨_, hj, rfl⟩, sumUp_later k hp⟩
  | labelled m m' S V D d sc h inv le valid k labels _ tr₁ a mid b tr₃ acc acc' name docs htr L hl hf hh hc hk hone hone' hok hlab
      hfit =>
    subst htr
    have he : Exec (LVStep m D d sc) (.new h) (tr₁ ++ .vec (.startPass t) :: a ++ .vec (.endPass t acc) :: mid ++
      .vec (.startPass t') :: b ++ .vec (.endPass t' acc') :: tr₃) s := he
    have he' : Exec (LVStep m D d sc) (.new h) (tr₁ ++ .vec (.startPass t) :: a ++ .vec (.endPass t acc) ::
      (mid ++ .vec (.startPass t') :: b ++ .vec (.endPass t' acc') :: tr₃)) s := by
      simpa using he
    refine ⟨_, _, labelled_writes m' k labels he' name docs L hl hf hh hc hk hone (fun v x u hu => hok v x u ?_) hlab
        (fun p x us hp => hfit _ x us ?_),
      labelled_writes m' k labels he name docs L hl hf hh hc hk hone' (fun v x u hu => hok v x u ?_) hlab
        (fun p x us hp => hfit _ x us ?_), ?_⟩
    · simp only [List.mem_append, List.mem_cons] at hu ⊢; tauto
    · obtain ⟨q, hq⟩ := hp
      refine ⟨q ++ .endPass t acc :: vecEvents (mid ++ .vec (.startPass t') :: b ++ .vec (.endPass t' acc') :: tr₃), ?_⟩
      simp only [vecEvents_append, vecEvents, ← hq, List.append_assoc, List.cons_append]
    · simp only [List.mem_append, List.mem_cons] at hu ⊢; tauto
    · obtain ⟨q, hq⟩ := hp
      refine ⟨q ++ .endPass t' acc' :: vecEvents tr₃, ?_⟩
      simp only [vecEvents_append, vecEvents, ← hq, List.append_assoc, List.cons_append]
    · rintro ⟨g, v⟩ hq' hkept
      obtain ⟨⟨_, us⟩, hq, e⟩ := List.mem_map.1 hq'
      simp only [Prod.mk.injEq] at e
      obtain ⟨rfl, rfl⟩ := e
      rename_i g
      obtain ⟨i1, i2, _⟩ := lv_project he
      obtain ⟨x, hx, hxe⟩ := mem_shownBy hq
      have given : HandedOut _ g x := lv_shown L hl hf hh he (t := t) (k := x) (g := g) (us := us)
        (by simp only [List.mem_append, List.mem_cons]; tauto)
      simp only [vecEvents_append, vecEvents] at i2
      obtain ⟨h1, h2⟩ := C67_sparse hc i2 (fun hm => hone (mem_vecEvents_start hm))
        (fun hm => hone' (mem_vecEvents_start hm)) hxe (fun v r hm => hkept x given v r (by
          rw [← vecEvents_append, ← vecEvents_append] at hm
          exact (mem_vecEvents (by intros; simp)).1 hm))
      obtain ⟨⟨z, us'⟩, hz'⟩ := List.exists_mem_of_length_pos (Nat.lt_of_lt_of_eq Nat.zero_lt_one h1.symm)
      obtain ⟨hz, e⟩ := List.mem_filter.1 hz'
      have e : z = x := by simpa using e
      subst e
      obtain ⟨⟨g', us''⟩, hg', e, hs⟩ := forall₂_right (shownBy_emitted (t := t') (tr := b) fun u k us hm =>
        lv_no_emit he u k us (by simp only [List.mem_append, List.mem_cons]; tauto)) hz
      cases e
      have given' : HandedOut _ g' z := lv_shown L hl hf hh he (t := t') (k := z) (g := g') (us := us')
        (by simp only [List.mem_append, List.mem_cons]; tauto)
      obtain ⟨u, hu⟩ := given
      obtain ⟨u', hu'⟩ := given'
      have e := (C66_agree m L d hl hf h hh i1 (mem_labEvents.2 hu) (mem_labEvents.2 hu')).1 rfl
      subst e
      exact ⟨_, List.mem_map.2 ⟨_, hg', rfl⟩, sumUp_later k (h2 _ hz)⟩
  | sparseHist K inst sc le labels _ tr₁ a mid b tr₃ acc acc' name docs htr hc hle hnan hone hone' hok hfit =>
    subst htr
    have he : Exec (HVStep sc le) (HVSys.new le.length) (tr₁ ++ .vec (.startPass t) :: a ++ .vec (.endPass t acc) :: mid ++
      .vec (.startPass t') :: b ++ .vec (.endPass t' acc') :: tr₃) s := he
    obtain ⟨l, l', l1, l2, l1', l2', l3⟩ := hv_twice hc he hone hone'
    obtain ⟨p1, _, p3⟩ := C84_pass (tr₁ := tr₁) (tr₂ := a)
      (tr₃ := mid ++ .vec (.startPass t') :: b ++ .vec (.endPass t' acc') :: tr₃) (acc := acc) hc (by simpa using he) hone
    obtain ⟨p1', _, p3'⟩ := C84_pass hc he hone'
    have hkeys : l.map Prod.fst = (hvEmitted t a).map Prod.fst := by rw [← l1, List.map_map]; rfl
    have hkeys' : l'.map Prod.fst = (hvEmitted t' b).map Prod.fst := by rw [← l1', List.map_map]; rfl
    rw [← hkeys] at p1 p3
    rw [← hkeys'] at p1' p3'
    rw [← l1, ← l1']
    refine ⟨l, l', hists_write l p1 l2 p3 hle hnan name docs labels ?_,
      hists_write l' p1' l2' p3' hle hnan name docs labels ?_, l3⟩
    · rintro k ys ⟨p, xs, ⟨q, rfl⟩, w2, w3⟩
      obtain ⟨f1, f2⟩ := hfit (tr₁ ++ .vec (.startPass t) :: p) k xs
        ⟨q ++ .vec (.endPass t acc) :: (mid ++ .vec (.startPass t') :: b ++ .vec (.endPass t' acc') :: tr₃), by simp⟩ w2
      refine ⟨f1, fun x hx => ?_, by rw [w3.length_eq]; exact f2⟩
      obtain ⟨v, u, hv⟩ := mem_finished w2 (w3.subset hx)
      refine hok v k u x ?_
      simp only [List.mem_append, List.mem_cons] at hv ⊢; tauto
    · rintro k ys ⟨p, xs, ⟨q, rfl⟩, w2, w3⟩
      obtain ⟨f1, f2⟩ := hfit
        (tr₁ ++ .vec (.startPass t) :: a ++ .vec (.endPass t acc) :: mid ++ .vec (.startPass t') :: p) k xs
        ⟨q ++ .vec (.endPass t' acc') :: tr₃, by simp⟩ w2
      refine ⟨f1, fun x hx => ?_, by rw [w3.length_eq]; exact f2⟩
      obtain ⟨v, u, hv⟩ := mem_finished w2 (w3.subset hx)
      refine hok v k u x ?_
      simp only [List.mem_append, List.mem_cons] at hv ⊢; tauto
  | denseHist cells le labels _ tr₁ a mid b tr₃ name docs htr hle hnan hone hone' hinf hok hlab hfit =>
    subst htr
    have he : Exec (HDStep cells le) (HDSys.new le.length) (tr₁ ++ .vec (.startPass t) :: a ++ .vec (.endPass t) :: mid ++
      .vec (.startPass t') :: b ++ .vec (.endPass t') :: tr₃) s := he
    obtain ⟨l, l', l1, l2, l1', l2', l3⟩ := hd_twice he hone' hinf
    obtain ⟨p1, _, p3⟩ := C86_pass (tr₁ := tr₁) (tr₂ := a)
      (tr₃ := mid ++ .vec (.startPass t') :: b ++ .vec (.endPass t') :: tr₃) (by simpa using he) hone
    obtain ⟨p1', _, p3'⟩ := C86_pass he hone'
    have hkeys : l.map Prod.fst = (hdEmitted t a).map Prod.fst := by rw [← l1, List.map_map]; rfl
    have hkeys' : l'.map Prod.fst = (hdEmitted t' b).map Prod.fst := by rw [← l1', List.map_map]; rfl
    rw [← hkeys] at p1 p3
    rw [← hkeys'] at p1' p3'
    rw [← l1, ← l1']
    refine ⟨l, l', hists_write l (p1.imp fun h => Nat.ne_of_lt h) l2 p3 hle hnan name docs labels
        (fun i ys hi => ⟨hlab i, hd_fits (fun v j u x hu => hok v j u x ?_) (fun j => ?_) hi⟩),
      hists_write l' (p1'.imp fun h => Nat.ne_of_lt h) l2' p3' hle hnan name docs labels
        (fun i ys hi => ⟨hlab i, hd_fits (fun v j u x hu => hok v j u x ?_) (fun j => ?_) hi⟩), fun q hq _ => l3 q hq⟩
    · simp only [List.mem_append, List.mem_cons] at hu ⊢; tauto
    · refine Nat.lt_of_le_of_lt ?_ (hfit j)
      simp only [hdFinished_append, hdFinished, List.length_append]; omega
    · simp only [List.mem_append, List.mem_cons] at hu ⊢; tauto
    · refine Nat.lt_of_le_of_lt ?_ (hfit j)
      simp only [hdFinished_append, hdFinished, List.length_append]; omega

/-! ## The lines of a series -/

theorem atMost_mono (b : F64) {xs ys : List F64} (h : xs <+: ys) : atMost b xs ≤ atMost b ys := by
  obtain ⟨zs, rfl⟩ := h
  unfold atMost
  rw [List.filter_append, List.length_append]
  exact Nat.le_add_right _ _

theorem sum_mono {xs ys : List F64} (h : xs <+: ys) (hy : ∀ y ∈ ys, F64.fle F64.pzero y = true) :
    F64.fle (canon (xs.foldl F64.add F64.pzero)) (canon (ys.foldl F64.add F64.pzero)) = true := by
  obtain ⟨zs, rfl⟩ := h
  have hz : F64.NonNeg F64.pzero := ⟨by decide +kernel, by decide +kernel⟩
  obtain ⟨g1, _⟩ := nonneg_fold xs _ hz fun x hx => hy x (List.mem_append_left _ hx)
  rw [List.foldl_append]
  obtain ⟨g3, g4⟩ := nonneg_fold zs _ g1 fun x hx => hy x (List.mem_append_right _ hx)
  rw [canon, if_neg (by rw [g1.not_nan]; decide), canon, if_neg (by rw [g3.not_nan]; decide)]
  exact (g1.le_iff g3).2 g4

/-- A series with a later value has the same lines, with values that are not less. -/
theorem shown_later (k : MKind) (n : Bytes) (ls : Labels) {a b : k.Val} (h : k.Later a b) :
    ∀ e ∈ k.shown n ls a, ∃ e' ∈ k.shown n ls b, e'.name = e.name ∧ e'.labels = e.labels ∧ k.NoLess b e.value e'.value := by
  cases k with
  | counter =>
    intro e he
    have he : e ∈ [(⟨n, ls, .int (a : Nat)⟩ : Expected)] := he
    rw [List.mem_singleton] at he
    subst he
    exact ⟨_, List.mem_singleton.2 rfl, rfl, rfl, Int.ofNat_le.2 h⟩
  | gauge =>
    intro e he
    have he : e ∈ [(⟨n, ls, .int (a : Int)⟩ : Expected)] := he
    rw [List.mem_singleton] at he
    subst he
    exact ⟨_, List.mem_singleton.2 rfl, rfl, rfl, trivial⟩
  | float =>
    intro e he
    have he : e ∈ [(⟨n, ls, .float (canon a)⟩ : Expected)] := he
    rw [List.mem_singleton] at he
    subst he
    exact ⟨_, List.mem_singleton.2 rfl, rfl, rfl, trivial⟩
  | histogram le =>
    intro e he
    have h : (a : List F64) <+: b := h
    have he : e ∈ shownHistogram le n ls a := he
    show ∃ e' ∈ shownHistogram le n ls b, _
    simp only [shownHistogram, List.mem_append, List.mem_map, List.mem_cons, List.not_mem_nil, or_false] at he ⊢
    rcases he with ⟨c, hc, rfl⟩ | rfl | rfl | rfl
    · exact ⟨_, .inl ⟨c, hc, rfl⟩, rfl, rfl, Int.ofNat_le.2 (atMost_mono c h)⟩
    · exact ⟨_, .inr (.inl rfl), rfl, rfl, Int.ofNat_le.2 h.length_le⟩
    · exact ⟨_, .inr (.inr (.inl rfl)), rfl, rfl, sum_mono h⟩
    · exact ⟨_, .inr (.inr (.inr rfl)), rfl, rfl, Int.ofNat_le.2 h.length_le⟩

theorem forall₂_mem_left {α β : Type} {R : α → β → Prop} {l : List α} {k : List β} (h : List.Forall₂ R l k) {x : α}
    (hx : x ∈ l) : ∃ y ∈ k, R x y := by
  induction h with
  | nil => cases hx
  | cons h _ ih =>
    rcases List.mem_cons.1 hx with rfl | hx
    · exact ⟨_, List.mem_cons_self, h⟩
    · obtain ⟨y, hy, hr⟩ := ih hx
      exact ⟨y, List.mem_cons_of_mem _ hy, hr⟩

theorem forall₂_mem_right {α β : Type} {R : α → β → Prop} {l : List α} {k : List β} (h : List.Forall₂ R l k) {y : β}
    (hy : y ∈ k) : ∃ x ∈ l, R x y := by
  obtain ⟨x, hx, hr⟩ := forall₂_mem_left h.flip hy
  exact ⟨x, hx, hr⟩

/-! ## The group -/

/-- C76, when each field has a run of its own, whatever else goes on. -/
theorem C76_fields {ryu : F64 → Bytes} {rf : Bytes → Option F64} (F : FloatText ryu rf) (m : Mode) {n : Nat}
    {parts : Fin n → Part} {trs : ∀ i, List (parts i).E}
    (h : ∀ i, ∃ s, Exec (parts i).Step (parts i).init (trs i) s) (t t' : Tid) (f f' : Fin n → ScrapeField) (c : Fin n → Claim)
    (was : ∀ i, (c i).K → (c i).k.Val → Prop) (there kept : ∀ i, (c i).K → Prop)
    (hu : ∀ i, FieldTwice t t' (parts i) (trs i) (f i) (f' i) (c i) (was i) (there i) (kept i))
    (hn : ∀ i, MetricNameRe (f i).name.text) (hh : ∀ i x, docHelp (f i).docs = some x → HelpOk x) :
    ∃ st st' out out' gs gs', regCollect (textEncoder m ryu) (List.ofFn f) (TextEnc.new []) = (.ok (), ⟨st, out⟩) ∧
      regCollect (textEncoder m ryu) (List.ofFn f') (TextEnc.new []) = (.ok (), ⟨st', out'⟩) ∧
      readFamilies rf out = some gs ∧ readFamilies rf out' = some gs' ∧
      ∃ (hl : gs.length = n) (hl' : gs'.length = n), ∀ i : Fin n,
        (c i).text rf (gs[i.val]'(hl ▸ i.isLt)) ∧ ((c i).again (was i) (there i)).text rf (gs'[i.val]'(hl' ▸ i.isLt)) ∧
          (c i).GoesOn rf (was i) (kept i) (gs[i.val]'(hl ▸ i.isLt)) (gs'[i.val]'(hl' ▸ i.isLt)) := by
  choose l l' w w' go using fun i => twice_writes (hu i) (h i).choose_spec
  have same : ∀ i, (f' i).name = (f i).name ∧ (f' i).docs = (f i).docs := fun i =>
    ⟨(w' i).name.symm.trans (w i).name, (w' i).docs.symm.trans (w i).docs⟩
  obtain ⟨st, out, gs, e1, e2, hl, e3⟩ := group_text F m f c l w hn hh
  obtain ⟨st', out', gs', e1', e2', hl', e3'⟩ := group_text F m f' (fun i => (c i).again (was i) (there i)) l' w'
    (fun i => by rw [(same i).1]; exact hn i) (fun i x hx => hh i x (by rw [← (same i).2]; exact hx))
  refine ⟨st, st', out, out', gs, gs', e1, e1', e2, e2', hl, hl', fun i => ?_⟩
  obtain ⟨ss, g1, g2⟩ := e3 i
  obtain ⟨ss', g1', g2'⟩ := e3' i
  refine ⟨⟨l i, ss, (w i).entries, g1, g2⟩, ⟨l' i, ss', (w' i).entries, g1', g2'⟩, ?_⟩
  rw [g1, g1']
  intro x hx
  obtain ⟨e, he, hr⟩ := forall₂_mem_right g2 hx
  obtain ⟨q, hq, he⟩ := List.mem_flatMap.1 he
  refine ⟨q.1, q.2, e, (w i).entries.2.1 q hq, he, hr, fun hkept => ?_⟩
  obtain ⟨b, hb, hlater⟩ := go i q hq hkept
  obtain ⟨e', he', n1, n2, n3⟩ := shown_later _ _ _ hlater e he
  obtain ⟨x', hx', hr'⟩ := forall₂_mem_left g2' (List.mem_flatMap.2 ⟨_, hb, he'⟩)
  refine ⟨b, (w' i).entries.2.1 _ hb, hlater, x', hx', ?_, ?_, ?_⟩
  · rw [hr'.1, n1, hr.1]
  · rw [← n2]; exact hr'.2.1
  · rw [hr.2.2, hr'.2.2]; exact n3

/-- C76. A group of counters, gauges, float gauges, histograms, and sparse and dense vectors of them (also with label groups
that are interned meanwhile), is in use by many threads. Thread `t` collects it, and when it is done, thread `t'`, which is
`t` or has synchronised with it, collects it again. Both texts are read back as families with true values as in C71. Moreover, every sample in the first text has one
in the second, with the same name and the same labels, unless its key was removed from the vector in between; and no
counter, no bucket and no count has gone down, and no sum of observations none of which is negative. -/
theorem C76_group {ryu : F64 → Bytes} {rf : Bytes → Option F64} (F : FloatText ryu rf) (m : Mode) {n : Nat}
    {parts : Fin n → Part} {tr : List (Σ i, (parts i).E)} {s : ∀ i, (parts i).S}
    (h : Exec (RegStep parts) (fun i => (parts i).init) tr s) (t t' : Tid) (f f' : Fin n → ScrapeField) (c : Fin n → Claim)
    (was : ∀ i, (c i).K → (c i).k.Val → Prop) (there kept : ∀ i, (c i).K → Prop)
    (hu : ∀ i, FieldTwice t t' (parts i) (onField i tr) (f i) (f' i) (c i) (was i) (there i) (kept i))
    (hn : ∀ i, MetricNameRe (f i).name.text) (hh : ∀ i x, docHelp (f i).docs = some x → HelpOk x) :
    ∃ st st' out out' gs gs', regCollect (textEncoder m ryu) (List.ofFn f) (TextEnc.new []) = (.ok (), ⟨st, out⟩) ∧
      regCollect (textEncoder m ryu) (List.ofFn f') (TextEnc.new []) = (.ok (), ⟨st', out'⟩) ∧
      readFamilies rf out = some gs ∧ readFamilies rf out' = some gs' ∧
      ∃ (hl : gs.length = n) (hl' : gs'.length = n), ∀ i : Fin n,
        (c i).text rf (gs[i.val]'(hl ▸ i.isLt)) ∧ ((c i).again (was i) (there i)).text rf (gs'[i.val]'(hl' ▸ i.isLt)) ∧
          (c i).GoesOn rf (was i) (kept i) (gs[i.val]'(hl ▸ i.isLt)) (gs'[i.val]'(hl' ▸ i.isLt)) :=
  C76_fields F m (fun i => ⟨_, reg_field h i⟩) t t' f f' c was there kept hu hn hh

theorem forall₂_fun {α β : Type} [DecidableEq α] [Inhabited β] {R : α → β → Prop} {l : List α} {k : List β}
    (h : List.Forall₂ R l k) (hl : l.Nodup) : ∃ G : α → β, k = l.map G ∧ ∀ x ∈ l, R x (G x) := by
  induction h with
  | nil => exact ⟨fun _ => default, rfl, by simp⟩
  | @cons x y l k hr _ ih =>
    obtain ⟨hx, hl⟩ := List.nodup_cons.1 hl
    obtain ⟨G, rfl, hG⟩ := ih hl
    refine ⟨Function.update G x y, ?_, ?_⟩
    · rw [List.map_cons, Function.update_self]
      congr 1
      refine List.map_congr_left fun z hz => ?_
      rw [Function.update_of_ne]
      rintro rfl
      exact hx hz
    · intro z hz
      rcases List.mem_cons.1 hz with rfl | hz'
      · rw [Function.update_self]; exact hr
      · rw [Function.update_of_ne (by rintro rfl; exact hx hz')]; exact hG z hz'

theorem ofNat_fle {a b : Nat} (h : a ≤ b) : F64.fle (F64.ofNat a) (F64.ofNat b) = true := by
  exact ((F64.ofNat_nonneg a).le_iff (F64.ofNat_nonneg b)).2 (F64.ofNat_mono h)

theorem proto_later (k : MKind) {a b : k.Val} (h : k.Later a b) {p p' : PMetric} (hp : k.proto a p) (hp' : k.proto b p') :
    ∀ u, p.counter = some (some u) → ∃ w, p'.counter = some (some w) ∧ F64.fle u w = true := by
  intro u hu
  cases k with
  | counter =>
    have e := hp.1.symm.trans hu
    simp only [Option.some.injEq] at e
    subst e
    exact ⟨_, hp'.1, ofNat_fle h⟩
  | gauge => rw [hp.2] at hu; cases hu
  | float => rw [hp.2] at hu; cases hu
  | histogram => exact hp.elim

/-- C76, when each field has a run of its own, whatever else goes on. -/
theorem C76_fields_messages {ryu : F64 → Bytes} {rf : Bytes → Option F64} (F : FloatText ryu rf) (m : Mode) {n : Nat}
    {parts : Fin n → Part} {trs : ∀ i, List (parts i).E}
    (h : ∀ i, ∃ s, Exec (parts i).Step (parts i).init (trs i) s) (t t' : Tid) (f f' : Fin n → ScrapeField) (c : Fin n → Claim)
    (was : ∀ i, (c i).K → (c i).k.Val → Prop) (there kept : ∀ i, (c i).K → Prop)
    (hu : ∀ i, FieldTwice t t' (parts i) (trs i) (f i) (f' i) (c i) (was i) (there i) (kept i))
    (hk : ∀ i, (c i).k.kind ≠ .histogram)
    (hh : ∀ i j, i < j → docHelp (f i).docs ≠ none → docHelp (f j).docs = none →
      (∃ x, (c i).there x) ∧ ∃ x, there i x)
    (hs : ((List.ofFn f).map (fieldSize (labelText ryu))).sum < 2 ^ 64)
    (hs' : ((List.ofFn f').map (fieldSize (labelText ryu))).sum < 2 ^ 64) :
    ∃ e₁ e₂ e₁' e₂', ∃ G G' : Fin n → Option PFamily,
      regCollect (protoEncoder m ryu) (List.ofFn f) (ProtoEnc.new ([] : Bytes)) = (.ok (), e₁) ∧
      flush m e₁ = (.ok (), e₂) ∧ decodeScrape e₂.writer = some ((List.finRange n).filterMap G) ∧
      regCollect (protoEncoder m ryu) (List.ofFn f') (ProtoEnc.new ([] : Bytes)) = (.ok (), e₁') ∧
      flush m e₁' = (.ok (), e₂') ∧ decodeScrape e₂'.writer = some ((List.finRange n).filterMap G') ∧
      ∀ i, (∀ g, G i = some g → (c i).message rf g) ∧ (∀ g, G' i = some g → ((c i).again (was i) (there i)).message rf g) ∧
        (G i = none → ∀ x, ¬ (c i).there x) ∧ (G' i = none → ∀ x, ¬ there i x) ∧
        (c i).GoesOnMessage rf (was i) (kept i) (G i) (G' i) := by
  choose l l' w w' go using fun i => twice_writes (hu i) (h i).choose_spec
  have same : ∀ i, (f' i).docs = (f i).docs := fun i => (w' i).docs.symm.trans (w i).docs
  obtain ⟨e₁, e₂, gs, a1, a2, a3, a4⟩ := group_messages F m f c l w hk (fun i j hij h1 h2 => (hh i j hij h1 h2).1) hs
  obtain ⟨e₁', e₂', gs', b1, b2, b3, b4⟩ := group_messages F m f' (fun i => (c i).again (was i) (there i)) l' w' hk
    (fun i j hij h1 h2 => (hh i j hij (by rwa [same] at h1) (by rwa [same] at h2)).2) hs'
  have nd : (List.finRange n).Nodup := List.nodup_finRange n
  have : Inhabited PFamily := ⟨⟨none, none, none, []⟩⟩
  obtain ⟨G, rfl, hG⟩ := forall₂_fun a4 (nd.filter _)
  obtain ⟨G', rfl, hG'⟩ := forall₂_fun b4 (nd.filter _)
  have pack : ∀ (p : Fin n → Bool) (G : Fin n → PFamily), ((List.finRange n).filter p).map G =
      (List.finRange n).filterMap fun i => if p i then some (G i) else none := by
    intro p G
    induction List.finRange n with
    | nil => rfl
    | cons i is ih => by_cases hi : p i <;> simp [hi, ih]
  rw [pack] at a3 b3
  refine ⟨e₁, e₂, e₁', e₂', _, _, a1, a2, a3, b1, b2, b3, fun i => ?_⟩
  have live : ∀ {K : Type} {V : Type} (l : List (K × V)), decide (l.length ≠ 0) = true ∨
      (l = [] ∧ decide (l.length ≠ 0) = false) := by
    intro K V l; cases l <;> simp
  have hGi : l i ≠ [] → _ := fun hne => hG i (List.mem_filter.2 ⟨List.mem_finRange i, by
    simpa using hne⟩)
  have hGi' : l' i ≠ [] → _ := fun hne => hG' i (List.mem_filter.2 ⟨List.mem_finRange i, by
    simpa using hne⟩)
  have is : ∀ {K V : Type} (l : List (K × V)) (g : PFamily) (f : PFamily),
      (if decide (l.length ≠ 0) = true then some g else none) = some f ↔ l ≠ [] ∧ g = f := by
    intro K V l g f; cases l <;> simp
  have isn : ∀ {K V : Type} (l : List (K × V)) (g : PFamily),
      (if decide (l.length ≠ 0) = true then some g else none) = none ↔ l = [] := by
    intro K V l g; cases l <;> simp
  refine ⟨fun g hg => ?_, fun g hg => ?_, fun hg x hx => ?_, fun hg x hx => ?_, fun f hf p hp => ?_⟩
  · obtain ⟨hne, rfl⟩ := (is _ _ _).1 hg
    obtain ⟨ms, e, hr⟩ := hGi hne
    exact ⟨l i, ms, (w i).entries, e, hr⟩
  · obtain ⟨hne, rfl⟩ := (is _ _ _).1 hg
    obtain ⟨ms, e, hr⟩ := hGi' hne
    exact ⟨l' i, ms, (w' i).entries, e, hr⟩
  · have := (w i).entries.2.2 x hx
    rw [(isn _ _).1 hg] at this
    cases this
  · have := (w' i).entries.2.2 x hx
    rw [(isn _ _).1 hg] at this
    cases this
  · obtain ⟨hne, rfl⟩ := (is _ _ _).1 hf
    obtain ⟨ms, e, hr⟩ := hGi hne
    rw [e] at hp
    obtain ⟨q, hq, ⟨texts, t1, t2⟩, t3⟩ := forall₂_mem_right hr hp
    refine ⟨q.1, q.2, texts, (w i).entries.2.1 q hq, t1, t2, t3, fun hkept => ?_⟩
    obtain ⟨b, hb, hlater⟩ := go i q hq hkept
    have hne' : l' i ≠ [] := by rintro h; rw [h] at hb; cases hb
    obtain ⟨ms', e', hr'⟩ := hGi' hne'
    obtain ⟨p', hp', ⟨texts', t1', t2'⟩, t3'⟩ := forall₂_mem_left hr' hb
    exact ⟨b, (w' i).entries.2.1 _ hb, hlater, _, (is _ _ _).2 ⟨hne', rfl⟩, p', by rw [e']; exact hp', texts', t1', t2', t3',
      proto_later _ hlater t3 t3'⟩

/-- C76. The same for two scrapes with the protobuf encoder (as in C72, without histograms). The families are those of the
fields `i` for which `G i` is not `none`. -/
theorem C76_messages {ryu : F64 → Bytes} {rf : Bytes → Option F64} (F : FloatText ryu rf) (m : Mode) {n : Nat}
    {parts : Fin n → Part} {tr : List (Σ i, (parts i).E)} {s : ∀ i, (parts i).S}
    (h : Exec (RegStep parts) (fun i => (parts i).init) tr s) (t t' : Tid) (f f' : Fin n → ScrapeField) (c : Fin n → Claim)
    (was : ∀ i, (c i).K → (c i).k.Val → Prop) (there kept : ∀ i, (c i).K → Prop)
    (hu : ∀ i, FieldTwice t t' (parts i) (onField i tr) (f i) (f' i) (c i) (was i) (there i) (kept i))
    (hk : ∀ i, (c i).k.kind ≠ .histogram)
    (hh : ∀ i j, i < j → docHelp (f i).docs ≠ none → docHelp (f j).docs = none →
      (∃ x, (c i).there x) ∧ ∃ x, there i x)
    (hs : ((List.ofFn f).map (fieldSize (labelText ryu))).sum < 2 ^ 64)
    (hs' : ((List.ofFn f').map (fieldSize (labelText ryu))).sum < 2 ^ 64) :
    ∃ e₁ e₂ e₁' e₂', ∃ G G' : Fin n → Option PFamily,
      regCollect (protoEncoder m ryu) (List.ofFn f) (ProtoEnc.new ([] : Bytes)) = (.ok (), e₁) ∧
      flush m e₁ = (.ok (), e₂) ∧ decodeScrape e₂.writer = some ((List.finRange n).filterMap G) ∧
      regCollect (protoEncoder m ryu) (List.ofFn f') (ProtoEnc.new ([] : Bytes)) = (.ok (), e₁') ∧
      flush m e₁' = (.ok (), e₂') ∧ decodeScrape e₂'.writer = some ((List.finRange n).filterMap G') ∧
      ∀ i, (∀ g, G i = some g → (c i).message rf g) ∧ (∀ g, G' i = some g → ((c i).again (was i) (there i)).message rf g) ∧
        (G i = none → ∀ x, ¬ (c i).there x) ∧ (G' i = none → ∀ x, ¬ there i x) ∧
        (c i).GoesOnMessage rf (was i) (kept i) (G i) (G' i) :=
  C76_fields_messages F m (fun i => ⟨_, reg_field h i⟩) t t' f f' c was there kept hu hk hh hs hs'

/-! ## A counter and a dense vector of counters, collected by thread 1 and then by thread 2 -/

namespace TwiceExample
open ConcExample RegExample

def five : CounterCall := .incBy 5
def seven : CounterCall := .incBy 7

def word₁ : List IntEvent := [.update 0 (.add 3), .read 1 3]
def word₂ : List IntEvent := [.update 0 (.add 4), .sync 2 1, .read 2 7]

theorem word_run : ∃ m, Exec IntStep (Mem.new 0) (word₁ ++ word₂) m := by
  let m0 : Mem IntOp Nat := Mem.new 0
  let m1 := m0.modify 0 (.add 3) 0 ((IntOp.add 3).eff.apply (m0.valAt 0))
  let m2 := m1.load 1 1
  let m3 := m2.modify 0 (.add 4) 1 ((IntOp.add 4).eff.apply (m2.valAt 1))
  let m4 := m3.sync 2 1
  refine ⟨m4.load 2 2, ?_⟩
  have e1 : m1.valAt 1 = 3 := by decide +kernel
  have e2 : m4.valAt 2 = 7 := by decide +kernel
  have s2 : IntStep m1 (.read 1 3) m2 := by
    have := IntStep.read m1 1 1 ⟨by decide, by decide⟩
    rwa [e1] at this
  have s3 : IntStep m4 (.read 2 7) (m4.load 2 2) := by
    have := IntStep.read m4 2 2 ⟨by decide, by decide⟩
    rwa [e2] at this
  refine exec_cons (m := m1) (.update m0 0 (.add 3) 0 ⟨by decide, by decide, by simp [m0, Mem.new]⟩) ?_
  refine exec_cons (m := m2) s2 ?_
  refine exec_cons (m := m3) (.update m2 0 (.add 4) 1 ⟨by decide, by decide, ?_⟩) ?_
  · intro x hx
    simp [m2, m1, m0, Mem.load, Mem.modify, Mem.new] at hx
  exact exec_cons (m := m4) (.sync m3 2 1) (Exec.snoc (tr := []) .nil s3)

def cell₀ : List (DEvent CounterCall) :=
  [.startGet 0 1, .silent 0, .silent 0, .init 0 1 0, .acquired 0 1 0, .update 0 1 0 five, .sync 1 0]
def pass₁ : List (DEvent CounterCall) := [.skip 1 0, .emit 1 1 [five]]
def mid : List (DEvent CounterCall) := [.update 0 1 0 seven, .sync 2 1]
def pass₂ : List (DEvent CounterCall) := [.skip 2 0, .emit 2 1 [five, seven]]

def cell₁ : List (DEvent CounterCall) := cell₀ ++ .startPass 1 :: pass₁ ++ [.endPass 1]
def cell₂ : List (DEvent CounterCall) := mid ++ .startPass 2 :: pass₂ ++ [.endPass 2]

theorem cell_run : ∃ s, Exec (DStep 2) DSys.new (cell₁ ++ cell₂) s := by
  let s0 : DSys CounterCall := DSys.new
  let s1 := s0.goto 0 (.check 1)
  let s2 := s1.goto 0 (.slow 1)
  let s3 := (s2.setCell 1 (.running 0)).goto 0 (.init 1)
  let s4 := (({ s3 with next := 1, objs := Function.update s3.objs 0 [] }.setCell 1 (.done 0)).goto 0
        (.got 1 0)).learn 0 1 0
  let s5 := (s4.goto 0 .idle).hand 0 1 0
  let s6 := { s5 with objs := Function.update s5.objs 0 (s5.objs 0 ++ [five]) }.learn 0 1 1
  let s7 := { s6 with know := Function.update s6.know 1 fun i => joinKnow (s6.know 1 i) (s6.know 0 i) }
  let s8 := s7.goto 1 (.pass 0)
  let s9 := s8.goto 1 (.pass 1)
  let s10 := (s9.goto 1 (.pass 2)).learn 1 1 1
  let s11 := s10.goto 1 .idle
  let s12 := { s11 with objs := Function.update s11.objs 0 (s11.objs 0 ++ [seven]) }.learn 0 1 2
  let s13 := { s12 with know := Function.update s12.know 2 fun i => joinKnow (s12.know 2 i) (s12.know 1 i) }
  let s14 := s13.goto 2 (.pass 0)
  let s15 := s14.goto 2 (.pass 1)
  let s16 := (s15.goto 2 (.pass 2)).learn 2 1 2
  refine ⟨s16.goto 2 .idle, ?_⟩
  refine exec_cons (m := s1) (.startGet s0 0 1 rfl (by decide)) ?_
  refine exec_cons (m := s2) (.fastMiss s1 0 1 rfl rfl) ?_
  refine exec_cons (m := s3) (.slowRun s2 0 1 rfl rfl) ?_
  refine exec_cons (m := s4) (.create s3 0 1 rfl) ?_
  refine exec_cons (m := s5) (.created s4 0 1 0 rfl) ?_
  refine exec_cons (m := s6) (.update s5 0 1 0 five (List.mem_singleton.2 rfl)) ?_
  refine exec_cons (m := s7) (.sync s6 1 0) ?_
  refine exec_cons (m := s8) (.startPass s7 1 rfl) ?_
  refine exec_cons (m := s9) (.skip s8 1 0 rfl (by decide) rfl) ?_
  refine exec_cons (m := s10) (.emit s9 1 1 0 [five] rfl (by decide) rfl ⟨[], rfl⟩ ?_) ?_
  · intro k hk
    have : s9.know 1 1 = some 1 := rfl
    rw [this] at hk
    cases hk
    simp
  refine exec_cons (m := s11) (.endPass s10 1 2 rfl (by decide)) ?_
  refine exec_cons (m := s12) (.update s11 0 1 0 seven (List.mem_singleton.2 rfl)) ?_
  refine exec_cons (m := s13) (.sync s12 2 1) ?_
  refine exec_cons (m := s14) (.startPass s13 2 rfl) ?_
  refine exec_cons (m := s15) (.skip s14 2 0 rfl (by decide) rfl) ?_
  refine exec_cons (m := s16) (.emit s15 2 1 0 [five, seven] rfl (by decide) rfl ⟨[], rfl⟩ ?_) ?_
  · intro k hk
    have : s15.know 2 1 = some 1 := rfl
    rw [this] at hk
    cases hk
    simp
  exact Exec.snoc (tr := []) .nil (.endPass s16 2 2 rfl (by decide))

def twice : List (Σ i, (parts i).E) :=
  (word₁.map fun e => (⟨0, e⟩ : Σ i, (parts i).E)) ++ (cell₁.map fun e => (⟨1, e⟩ : Σ i, (parts i).E)) ++
  (word₂.map fun e => (⟨0, e⟩ : Σ i, (parts i).E)) ++ (cell₂.map fun e => (⟨1, e⟩ : Σ i, (parts i).E))

theorem twice_run : ∃ s, Exec (RegStep parts) (fun i => (parts i).init) twice s := by
  obtain ⟨w, hw⟩ := word_run
  obtain ⟨d, hd⟩ := cell_run
  obtain ⟨w₁, hw1, hw2⟩ := exec_split _ _ hw
  obtain ⟨d₁, hd1, hd2⟩ := exec_split _ _ hd
  let s0 : ∀ i, (parts i).S := fun i => (parts i).init
  have e1 := lift (parts := parts) (s := s0) 0 (x := w₁) hw1
  have e2 := lift (parts := parts) (s := Function.update s0 0 w₁) 1 (x := d₁) hd1
  have e3 := lift (parts := parts) (s := Function.update (Function.update s0 0 w₁) 1 d₁) 0 (x := w) hw2
  have e4 := lift (parts := parts) (s := Function.update (Function.update (Function.update s0 0 w₁) 1 d₁) 0 w) 1 (x := d) hd2
  exact ⟨_, exec_append (exec_append (exec_append e1 e2) e3) e4⟩

def first (m : Mode) : Fin 2 → ScrapeField
  | 0 => ⟨requests, [], singleEncode (.counter 3)⟩
  | 1 => ⟨name, [], fun enc n => passEncode enc n .counter idLabel .counter (counterOps m) (denseEmitted 1 pass₁)⟩

def second (m : Mode) : Fin 2 → ScrapeField
  | 0 => ⟨requests, [], singleEncode (.counter 7)⟩
  | 1 => ⟨name, [], fun enc n => passEncode enc n .counter idLabel .counter (counterOps m) (denseEmitted 2 pass₂)⟩

def claim : Fin 2 → Claim
  | 0 => ⟨Unit, .counter, requests, [], fun _ => [], fun _ (a : Nat) => WordWas 1 0 [.update 0 (.add 3)] a, fun _ => True⟩
  | 1 => ⟨Nat, .counter, name, [], idLabel, DenseWas 1 cell₀ pass₁ (0 : Nat) CounterCall.apply, DenseThere 1 cell₀⟩

def was : ∀ i, (claim i).K → (claim i).k.Val → Prop
  | 0 => fun _ (a : Nat) => WordWas 2 0 (word₁ ++ [.update 0 (.add 4), .sync 2 1]) a
  | 1 => DenseWas 2 (cell₁ ++ mid) pass₂ (0 : Nat) CounterCall.apply

def there : ∀ i, (claim i).K → Prop
  | 0 => fun _ => True
  | 1 => DenseThere 2 (cell₁ ++ mid)

theorem small (i : Nat) (us : List CounterCall) (h : us <+: denseUpdates i (cell₁ ++ cell₂)) :
    sumUp CounterCall.apply 0 us < 2 ^ 63 := by
  have h : us <+: [five, seven] := by
    by_cases hi : i = 1
    · subst hi; exact h
    · have hi' : ¬ 1 = i := fun h => hi h.symm
      have : denseUpdates i (cell₁ ++ cell₂) = [] := by
        simp [cell₁, cell₂, cell₀, mid, pass₁, pass₂, denseUpdates, hi']
      rw [this] at h
      rw [List.prefix_nil.1 h]
      exact List.nil_prefix
  have h := (List.mem_inits _ _).2 h
  simp only [List.inits, List.map_cons, List.map_nil, List.mem_cons, List.not_mem_nil, or_false] at h
  rcases h with rfl | rfl | rfl <;> decide

theorem in_use (m : Mode) : ∀ i, FieldTwice 1 2 (parts i) (onField i twice) (first m i) (second m i) (claim i) (was i)
    (there i) (fun _ => True)
  | 0 => FieldTwice.counter 0 3 7 (word₁ ++ word₂) [.update 0 (.add 3)] [.update 0 (.add 4), .sync 2 1] [] requests []
    rfl (by decide) (by decide) (.inr (by simp))
    (by
      intro a ha
      have : intUpdates ([.update 0 (.add 3)] ++ [.update 0 (.add 4), .sync 2 1]) =
        [(0, .add 3), (0, .add 4)] := rfl
      rw [this] at ha
      simp only [List.mem_cons, List.not_mem_nil, or_false] at ha
      rcases ha with rfl | rfl <;> exact ⟨_, rfl⟩)
    (by decide)
  | 1 => FieldTwice.dense m 2 .counter idLabel (cell₁ ++ cell₂) cell₀ pass₁ mid pass₂ [] name [] rfl trivial
    (by simp [pass₁]) (by simp [pass₂]) (.sync (tr := [.update 0 1 0 seven]) (.keep (tr := []) .start))
    (by
      intro v k o x hx
      simp only [cell₁, cell₂, cell₀, mid, pass₁, pass₂, List.cons_append, List.nil_append, List.mem_cons, reduceCtorEq,
        DEvent.update.injEq, false_or, or_false, List.not_mem_nil] at hx
      rcases hx with ⟨_, _, _, rfl⟩ | ⟨_, _, _, rfl⟩ <;>
        (simp only [MKind.CallOk]; unfold CounterCall.Ok; decide))
    idLabel_ok small

example {ryu : F64 → Bytes} {rf : Bytes → Option F64} (F : FloatText ryu rf) (m : Mode) :
    ∃ st st' out out' a b a' b', regCollect (textEncoder m ryu) (List.ofFn (first m)) (TextEnc.new []) = (.ok (), ⟨st, out⟩) ∧
      regCollect (textEncoder m ryu) (List.ofFn (second m)) (TextEnc.new []) = (.ok (), ⟨st', out'⟩) ∧
      readFamilies rf out = some [a, b] ∧ readFamilies rf out' = some [a', b'] ∧
      (claim 0).GoesOn rf (was 0) (fun _ => True) a a' ∧ (claim 1).GoesOn rf (was 1) (fun _ => True) b b' ∧
      ∃ x, there 1 x := by
  obtain ⟨s, h⟩ := twice_run
  obtain ⟨st, st', out, out', gs, gs', e1, e2, e3, e4, hl, hl', e5⟩ := C76_group F m h 1 2 (first m) (second m) claim was there
    (fun _ _ => True) (in_use m)
    (by
      intro i
      match i with
      | 0 => exact requests_ok
      | 1 => exact name_ok)
    (by
      intro i x hx
      match i with
      | 0 => cases hx
      | 1 => cases hx)
  match gs, hl, gs', hl', e5 with
  | [a, b], _, [a', b'], _, e5 =>
    exact ⟨st, st', out, out', a, b, a', b', e1, e2, e3, e4, (e5 0).2.2, (e5 1).2.2, (1 : Nat), [.startGet 0 1, .silent 0, .silent 0, .init 0 1 0],
      [.update 0 1 0 five, .sync 1 0] ++ .startPass 1 :: pass₁ ++ [.endPass 1] ++ mid, 0, 0, rfl,
      .sync (tr := [.update 0 1 0 five, .sync 1 0] ++ .startPass 1 :: pass₁ ++ [.endPass 1] ++ [.update 0 1 0 seven])
        (Informed.append (.sync (tr := [.update 0 1 0 five]) (.keep (tr := []) .start)) (.startPass 1 :: pass₁ ++ [.endPass 1] ++ [.update 0 1 0 seven]))⟩

example {ryu : F64 → Bytes} {rf : Bytes → Option F64} (F : FloatText ryu rf) (m : Mode) :
    ∃ e₁ e₂ e₁' e₂' a b a' b', regCollect (protoEncoder m ryu) (List.ofFn (first m)) (ProtoEnc.new ([] : Bytes)) = (.ok (), e₁) ∧
      flush m e₁ = (.ok (), e₂) ∧ decodeScrape e₂.writer = some [a, b] ∧
      regCollect (protoEncoder m ryu) (List.ofFn (second m)) (ProtoEnc.new ([] : Bytes)) = (.ok (), e₁') ∧
      flush m e₁' = (.ok (), e₂') ∧ decodeScrape e₂'.writer = some [a', b'] ∧
      (claim 0).GoesOnMessage rf (was 0) (fun _ => True) (some a) (some a') ∧
      (claim 1).GoesOnMessage rf (was 1) (fun _ => True) (some b) (some b') := by
  obtain ⟨s, h⟩ := twice_run
  have hi : (itoa 1).length = 1 := by decide +kernel
  obtain ⟨e₁, e₂, e₁', e₂', G, G', a1, a2, a3, b1, b2, b3, c⟩ := C76_messages F m h 1 2 (first m) (second m) claim was there
    (fun _ _ => True) (in_use m)
    (by
      intro i
      match i with
      | 0 => decide
      | 1 => decide)
    (by
      intro i j hij hi _
      match i with
      | 0 => exact absurd rfl hi
      | 1 => exact absurd rfl hi)
    (by
      have h0 : fieldSize (labelText ryu) (first m 0) = 64 + 8 + 0 + (0 + (64 + 0)) := rfl
      have h1 : fieldSize (labelText ryu) (first m 1) =
          64 + 4 + 0 + (0 + (64 + (64 + 2 + (itoa 1).length + 0) + 0)) := by cases m <;> rfl
      show fieldSize (labelText ryu) (first m 0) + (fieldSize (labelText ryu) (first m 1) + 0) < 2 ^ 64
      rw [h0, h1, hi]
      decide)
    (by
      have h0 : fieldSize (labelText ryu) (second m 0) = 64 + 8 + 0 + (0 + (64 + 0)) := rfl
      have h1 : fieldSize (labelText ryu) (second m 1) =
          64 + 4 + 0 + (0 + (64 + (64 + 2 + (itoa 1).length + 0) + 0)) := by cases m <;> rfl
      show fieldSize (labelText ryu) (second m 0) + (fieldSize (labelText ryu) (second m 1) + 0) < 2 ^ 64
      rw [h0, h1, hi]
      decide)
  have there0 : (claim 0).there () := trivial
  have there1 : (claim 1).there (1 : Nat) :=
    ⟨[.startGet 0 1, .silent 0, .silent 0, .init 0 1 0], [.update 0 1 0 five, .sync 1 0], 0, 0, rfl,
      .sync (tr := [.update 0 1 0 five]) (.keep (tr := []) .start)⟩
  have there1' : there 1 (1 : Nat) :=
    ⟨[.startGet 0 1, .silent 0, .silent 0, .init 0 1 0],
      [.update 0 1 0 five, .sync 1 0] ++ .startPass 1 :: pass₁ ++ [.endPass 1] ++ mid, 0, 0, rfl,
      .sync (tr := [.update 0 1 0 five, .sync 1 0] ++ .startPass 1 :: pass₁ ++ [.endPass 1] ++ [.update 0 1 0 seven])
        (Informed.append (.sync (tr := [.update 0 1 0 five]) (.keep (tr := []) .start))
          (.startPass 1 :: pass₁ ++ [.endPass 1] ++ [.update 0 1 0 seven]))⟩
  have some_of : ∀ (x : Option PFamily), x ≠ none → ∃ g, x = some g := fun x hx => Option.ne_none_iff_exists'.1 hx
  obtain ⟨a, ha⟩ := some_of (G 0) fun hn => (c 0).2.2.1 hn () there0
  obtain ⟨b, hb⟩ := some_of (G 1) fun hn => (c 1).2.2.1 hn (1 : Nat) there1
  obtain ⟨a', ha'⟩ := some_of (G' 0) fun hn => (c 0).2.2.2.1 hn () trivial
  obtain ⟨b', hb'⟩ := some_of (G' 1) fun hn => (c 1).2.2.2.1 hn (1 : Nat) there1'
  have f2 : List.finRange 2 = [0, 1] := by decide
  refine ⟨e₁, e₂, e₁', e₂', a, b, a', b', a1, a2, ?_, b1, b2, ?_, ?_, ?_⟩
  · rw [a3, f2]; simp [ha, hb]
  · rw [b3, f2]; simp [ha', hb']
  · have := (c 0).2.2.2.2; rwa [ha, ha'] at this
  · have := (c 1).2.2.2.2; rwa [hb, hb'] at this

end TwiceExample

/-! ## A vector of counters with label groups, collected twice by thread 1 -/

namespace TwiceLabelled
open LVExample RegExample

def five : CounterCall := .incBy 5
def seven : CounterCall := .incBy 7

def parts : Fin 1 → Part :=
  fun _ => .labelled .debug (Rodeo String) String CounterCall threadedRodeo exampleDef one exampleHeap

def mid : List (LVEvent String CounterCall 3) := [.vec (.update 0 key seven)]

/-- Until the first scrape is over. -/
def past : List (LVEvent String CounterCall 3) :=
  before five ++ .vec (.startPass 1) :: during five .inc ++ .vec (.endPass 1 [(key, [five, .inc])]) :: mid

def events : List (LVEvent String CounterCall 3) :=
  past ++ .vec (.startPass 1) :: again five .inc seven ++ .vec (.endPass 1 [(key, [five, .inc, seven])]) :: []

def trace : List (Σ i, (parts i).E) := events.map fun e => (⟨0, e⟩ : Σ i, (parts i).E)

theorem run : ∃ s, Exec (RegStep parts) (fun i => (parts i).init) trace s := by
  obtain ⟨v, hv⟩ := run_twice five .inc seven
  exact ⟨_, lift (parts := parts) (s := fun i => (parts i).init) 0 (x := v) hv⟩

def hits : Name := .str b!"hits"

theorem hits_ok : MetricNameRe hits.text := (C38_from_str _).1.1 (by decide)

def field (m : Mode) (l : List (exampleDef.Group × List CounterCall)) : Fin 1 → ScrapeField :=
  fun _ => ⟨hits, [], fun enc n => passEncode enc n .counter (derivedLabels exampleDef text) .counter (counterOps m) l⟩

def claim : Fin 1 → Claim := fun _ => ⟨exampleDef.Group, .counter, hits, [], derivedLabels exampleDef text,
  GroupWas 1 (before five) (during five .inc) (0 : Nat) CounterCall.apply, GroupThere 1 (before five) (during five .inc)⟩

def was : ∀ i, (claim i).K → (claim i).k.Val → Prop :=
  fun _ => GroupWas 1 past (again five .inc seven) (0 : Nat) CounterCall.apply

def there : ∀ i, (claim i).K → Prop := fun _ => GroupThere 1 past (again five .inc seven)

def kept : ∀ i, (claim i).K → Prop := fun _ (g : exampleDef.Group) => ∀ x, HandedOut events g x →
  ∀ v r, .vec (.remove v x (some r)) ∉ during five .inc ++ mid ++ again five .inc seven

/-- Nothing is removed. -/
theorem all_kept (g : exampleDef.Group) : kept 0 g := by
  intro x _ v r
  simp [during, mid, again]

theorem calls {v : Tid} {k : Nat × List Nat} {u : CounterCall} (h : .vec (.update v k u) ∈ events) : CounterCall.Ok u := by
  simp only [events, past, before, during, mid, again, List.cons_append, List.nil_append, List.mem_cons, reduceCtorEq,
    SEvent.update.injEq, LVEvent.vec.injEq, false_or, or_false, List.not_mem_nil] at h
  rcases h with ⟨_, _, rfl⟩ | ⟨_, _, rfl⟩ | ⟨_, _, rfl⟩ <;> (unfold CounterCall.Ok; decide)

/-- At most three increments have been made. -/
theorem small (p : List (SEvent (Nat × List Nat) CounterCall)) (k : Nat × List Nat) (us : List CounterCall)
    (hp : p <+: vecEvents events) (h : mapOf p k = some us) : sumUp CounterCall.apply 0 us < 2 ^ 63 := by
  have hp := (List.mem_inits _ _).2 hp
  simp only [events, past, before, during, mid, again, vecEvents, List.cons_append, List.nil_append, List.inits,
    List.map_cons, List.map_nil, List.mem_cons, List.not_mem_nil, or_false] at hp
  by_cases hk : k = key
  · subst hk
    rcases hp with rfl | rfl | rfl | rfl | rfl | rfl | rfl | rfl | rfl | rfl | rfl | rfl | rfl | rfl | rfl | rfl | rfl | rfl |
      rfl | rfl | rfl | rfl | rfl <;>
      (simp only [mapOf, List.foldl_cons, List.foldl_nil, mapAfter, if_true, Option.map_some, Option.map_none,
        Option.some.injEq, reduceCtorEq, List.nil_append, List.cons_append] at h
       try (subst h; decide))
  · have : ∀ q : List (SEvent (Nat × List Nat) CounterCall), (∀ t x, .insert t x ∈ q → x = key) → mapOf q k = none := by
      intro q
      induction q using List.reverseRecOn with
      | nil => intro _; rfl
      | append_singleton q e ih =>
        intro hq
        have hi := ih fun t x hx => hq t x (List.mem_append_left _ hx)
        rw [mapOf, List.foldl_append, ← mapOf]
        cases e with
        | insert t x =>
          have hx := hq t x (by simp)
          subst hx
          simp [mapAfter, hk, hi]
        | _ => simp [mapAfter, hi]
    rw [this p] at h
    · cases h
    · intro t x hx
      rcases hp with rfl | rfl | rfl | rfl | rfl | rfl | rfl | rfl | rfl | rfl | rfl | rfl | rfl | rfl | rfl | rfl | rfl |
        rfl | rfl | rfl | rfl | rfl | rfl <;> simp at hx <;> exact hx.2

theorem again_start : .vec (.startPass 1) ∉ again five .inc seven := by simp [again]

theorem in_use (m : Mode) : ∀ i, FieldTwice 1 1 (parts i) (onField i trace) (field m (shownBy 1 (during five .inc)) i)
    (field m (shownBy 1 (again five .inc seven)) i) (claim i) (was i) (there i) (kept i)
  | 0 => FieldTwice.labelled .debug m (Rodeo String) String threadedRodeo exampleDef one exampleHeap _ _ _ .counter
    (derivedLabels exampleDef text) events (before five) (during five .inc) mid (again five .inc seven) []
    [(key, [five, .inc])] [(key, [five, .inc, seven])] hits [] rfl threadedRodeo_laws exampleDef_lawful
    LVExample.fits heap_ok (fun _ => Nat.zero_lt_one) trivial (no_start _ _) again_start (fun _ _ _ h => calls h)
    visit_ok small

/-- What the first text says about the group goes on in the second. -/
example {ryu : F64 → Bytes} {rf : Bytes → Option F64} (F : FloatText ryu rf) (m : Mode) :
    ∃ st st' out out' a b,
      regCollect (textEncoder m ryu) (List.ofFn (field m (shownBy 1 (during five .inc)))) (TextEnc.new []) =
        (.ok (), ⟨st, out⟩) ∧
      regCollect (textEncoder m ryu) (List.ofFn (field m (shownBy 1 (again five .inc seven)))) (TextEnc.new []) =
        (.ok (), ⟨st', out'⟩) ∧
      readFamilies rf out = some [a] ∧ readFamilies rf out' = some [b] ∧
      (claim 0).GoesOn rf (was 0) (kept 0) a b ∧ ∀ g, kept 0 g := by
  obtain ⟨s, h⟩ := run
  obtain ⟨st, st', out, out', gs, gs', e1, e2, e3, e4, hl, hl', e5⟩ := C76_group F m h 1 1 _ _ claim was there kept (in_use m)
    (fun _ => hits_ok) (fun _ x hx => by cases hx)
  match gs, gs', hl, hl', e5 with
  | [a], [b], _, _, e5 => exact ⟨st, st', out, out', a, b, e1, e2, e3, e4, (e5 0).2.2, all_kept⟩

end TwiceLabelled

end Measured
