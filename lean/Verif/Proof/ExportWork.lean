import Verif.Proof.ExportPlace
import Verif.Props.Export

/-! # Proofs about the example server: how much there is left to do -/

namespace Measured.Server
open Measured.Conc Measured.Spec

/-! ## Tables are small -/

section
variable {m : Mode} {c : Vec → ShardConf Key} {cap : Nat} {tr : List Event} {s : Sys}

/-- A request asks for one label group of a vector. -/
theorem may_unique (h : Exec (Step m c) (.new cap) tr s) {i : Vec} {g g' : i.groups.Group} {x : Tid} (h1 : MayIn i g tr x)
    (h2 : MayIn i g' tr x) : g = g' := by
  have hi := taskInv h x
  cases i with
  | requests =>
    obtain ⟨r, rfl, a⟩ := h1
    obtain ⟨r', rfl, b⟩ := h2
    have a := (hi.began r).1 a
    rw [(hi.began r').1 b] at a
    cases a; rfl
  | duration =>
    obtain ⟨r, rfl, a, _⟩ := h1
    obtain ⟨r', rfl, b, _⟩ := h2
    have a := (hi.began r).1 a
    rw [(hi.began r').1 b] at a
    cases a; rfl
  | responses =>
    obtain ⟨r, st, rfl, a, a'⟩ := h1
    obtain ⟨r', st', rfl, b, b'⟩ := h2
    have a := (hi.began r).1 a
    rw [(hi.began r').1 b] at a
    have a' := (hi.answered st).1 a'
    rw [(hi.answered st').1 b'] at a'
    cases a; cases a'; rfl

/-- A table has no more entries than there are requests. -/
theorem shard_few (h : Exec (Step m c) (.new cap) tr s) {T : List Tid} (hT : ∀ t, s.pc t ≠ .new → t ∈ T) (i : Vec) (sh : Nat) :
    ((s.vecs.own i).vec.shards sh).length ≤ T.length := by
  obtain ⟨hn, hc⟩ := C23_contents (to_map h i)
  have key : ∀ k ∈ ((s.vecs.own i).vec.shards sh).map Prod.fst, ∃ x g, x ∈ T ∧
      .on i (.lab (.encoded x g (some k))) ∈ tr ∧ MayIn i g tr x := by
    intro k hk
    obtain ⟨⟨k', us⟩, hm, rfl⟩ := List.mem_map.1 hk
    obtain ⟨v, hv⟩ := insert_of_mem ((hc sh k' us).1 hm).2
    obtain ⟨g, h1, h2⟩ := insert_may h ((mem_mapEvents (by simp)).1 hv)
    refine ⟨v, g, hT v fun hp => ?_, h1, h2⟩
    obtain ⟨r, hr⟩ := may_began h2
    have := ((taskInv h v).began r).1 hr
    rw [hp] at this
    cases this
  choose! f g hf using key
  have hinj : (((s.vecs.own i).vec.shards sh).map Prod.fst |>.map f).Nodup := by
    refine (hn sh).map_on fun a ha b hb e => ?_
    obtain ⟨_, a1, a2⟩ := hf a ha
    obtain ⟨_, b1, b2⟩ := hf b hb
    rw [e] at a1 a2
    exact (agree h a1 b1).2 (may_unique h a2 b2)
  have := (List.subperm_of_subset hinj (l₂ := T) fun x hx => by
    obtain ⟨k, hk, rfl⟩ := List.mem_map.1 hx
    exact (hf k hk).1).length_le
  simpa using this

/-- The invariant of the labels of a vector. -/
theorem labels_inv (h : Exec (Step m c) (.new cap) tr s) (i : Vec) :
    ∃ tr', LabelInv threadedRodeo (fun s : Rodeo Lab => s.items.Nodup) (fun s k => k < s.items.length) i.groups tr' (s.vecs.at i).lab := by
  obtain ⟨tr', h1, _⟩ := C75_shared (to_shared h) i
  exact ⟨_, label_inv m threadedRodeo_laws i.groups (allLawful_of_fields (groups_lawful i)) _
    (fits_checked (groups_fit i)) _ (heap_new cap) (lv_project h1).1⟩

/-- Label groups have one field that is interned. -/
theorem rest_short (h : Exec (Step m c) (.new cap) tr s) (i : Vec) (t : Tid) :
    match (s.vecs.own i).pc t with
    | .idle => True
    | .encoding _ _ _ rest | .decoding _ _ rest _ => rest.length ≤ 1 := by
  obtain ⟨_, I⟩ := labels_inv h i
  have := I.pc t
  obtain ⟨j, hj⟩ := dynamics_eq i
  have key : ∀ pre rest, i.groups.dynamics = pre ++ rest → rest.length ≤ 1 := by
    intro pre rest h
    have := congrArg List.length h
    rw [hj] at this
    simp at this
    omega
  change LabelPcOk _ _ _ _ _ ((s.vecs.own i).pc t) at this
  generalize (s.vecs.own i).pc t = q at this
  cases q with
  | idle => trivial
  | encoding g index ks rest => obtain ⟨_, pre, h1, _⟩ := this; exact key pre rest h1
  | decoding u env rest ks => obtain ⟨_, _, _, pre, h1, _⟩ := this; exact key pre rest h1

end

/-! ## Work -/

/-- What is left to do in `with_labels`. -/
def encodeWork {V : Type} {n : Nat} : LabelPc V n → Nat
  | .idle => 3
  | .encoding _ _ _ [] => 1
  | .encoding _ _ _ _ => 2
  | .decoding .. => 0

/-- What is left to do in `get_metric`. -/
def getWork {U : Type} : SPc Key U → Nat
  | .idle => 9
  | .getRead _ => 8
  | .probe _ => 7
  | .missed _ => 6
  | .getWrite _ => 5
  | .insert _ => 4
  | .inserted _ => 3
  | .refind _ => 2
  | _ => 1

/-- How far the thread is with the entry. -/
def entryDone {V : Type} {n : Nat} : LabelPc V n → Option (Key × (Fin n → V)) → Nat
  | _, some _ => 3
  | .decoding _ _ [] _, none => 2
  | .decoding .., none => 1
  | _, none => 0

/-- What is left to do in a pass through `n` tables of at most `R` entries. -/
def passLeft {V U : Type} {k : Nat} (n R : Nat) (lab : LabelPc V k) (seen : Option (Key × (Fin k → V))) : SPc Key U → Nat
  | .collect sh _ => (n - sh) * (4 * R + 2) + 1
  | .scan sh j _ _ => (n - sh - 1) * (4 * R + 2) + (4 * (R - j) - entryDone lab seen) + 2
  | _ => 0

/-- What is left to do on a vector. -/
def roleWork {i : Vec} (n R : Nat) (lab : LabelPc Lab i.groups.n) (th : SThread Key i.Call)
    (seen : Option (Key × (Fin i.groups.n → Lab))) : Role i → Nat
  | .encode _ => encodeWork lab
  | .get _ => getWork th.pc
  | .pass => passLeft n R lab seen th.pc
  | _ => 0

theorem roleWork_le {i : Vec} (n R : Nat) (lab : LabelPc Lab i.groups.n) (th : SThread Key i.Call)
    (seen : Option (Key × (Fin i.groups.n → Lab))) (r : Role i) : roleWork n R lab th seen r ≤ 9 + (n + 1) * (4 * R + 2) := by
  have mul : ∀ a, a ≤ n → a * (4 * R + 2) ≤ n * (4 * R + 2) := fun a h => Nat.mul_le_mul_right _ h
  cases r with
  | none => exact Nat.zero_le _
  | use k => exact Nat.zero_le _
  | encode g =>
    have : encodeWork lab ≤ 3 := by unfold encodeWork; split <;> decide
    show encodeWork lab ≤ _
    omega
  | get k =>
    have : getWork th.pc ≤ 9 := by unfold getWork; split <;> decide
    show getWork th.pc ≤ _
    omega
  | pass =>
    show passLeft n R lab seen th.pc ≤ _
    unfold passLeft
    rw [Nat.add_mul n 1 (4 * R + 2), Nat.one_mul]
    split
    · rename_i sh _ _
      have := mul (n - sh) (Nat.sub_le _ _)
      omega
    · rename_i sh _ _ _ _
      have := mul (n - sh - 1) (by omega)
      omega
    · omega

/-- The places of the handler and the middleware, by how many more of them are to come at most. -/
def rank : Pc → Hpc → Nat
  | .new, _ | .done .., _ | .dead _, _ => 0
  | .reqLabel _, _ => 30
  | .reqGet .., _ => 29
  | .reqInc .., _ => 28
  | .reqDrop .., _ => 27
  | .timerLabel _, _ => 26
  | .timed .., _ => 25
  | .inside .., .out => 24
  | .inside .., .wait => 23
  | .inside .., .head .requests => 22
  | .inside .., .pass .requests => 21
  | .inside .., .head .responses => 20
  | .inside .., .pass .responses => 19
  | .inside .., .head .duration => 18
  | .inside .., .pass .duration => 17
  | .inside .., .fin => 16
  | .inside .., .made _ => 15
  | .inside .., .crashed => 14
  | .durGet .., _ => 10
  | .durObserve .., _ => 9
  | .durDrop .., _ => 8
  | .resLabel .., _ => 7
  | .resGet .., _ => 6
  | .resInc .., _ => 5
  | .resDrop .., _ => 4
  | .last .., _ => 3

theorem rank_le (p : Pc) (h : Hpc) : rank p h ≤ 30 := by unfold rank; split <;> decide

/-- The steps of one place take less than this. -/
def placeCost (c : Vec → ShardConf Key) (R : Nat) : Nat :=
  28 + ((c .requests).n + (c .responses).n + (c .duration).n + 3) * (4 * R + 2)

/-- What a request has left to do on a vector. -/
def vecWork (c : Vec → ShardConf Key) (R : Nat) (s : ESys) (t : Tid) (i : Vec) : Nat :=
  roleWork (c i).n R ((s.base.vecs.own i).pc t) ((s.base.vecs.own i).vec.thr t) ((s.base.vecs.own i).seen t)
    (roleOf i (s.base.pc t) (s.at' t))

/-- What a request has left to do. -/
def taskWork (c : Vec → ShardConf Key) (R : Nat) (s : ESys) (t : Tid) : Nat :=
  rank (s.base.pc t) (s.at' t) * placeCost c R +
    (vecWork c R s t .requests + vecWork c R s t .responses + vecWork c R s t .duration)

theorem vecWork_sum (c : Vec → ShardConf Key) (R : Nat) (s : ESys) (t : Tid) :
    vecWork c R s t .requests + vecWork c R s t .responses + vecWork c R s t .duration < placeCost c R := by
  have h1 := roleWork_le (i := .requests) (c .requests).n R ((s.base.vecs.own .requests).pc t) ((s.base.vecs.own .requests).vec.thr t)
    ((s.base.vecs.own .requests).seen t) (roleOf .requests (s.base.pc t) (s.at' t))
  have h2 := roleWork_le (i := .responses) (c .responses).n R ((s.base.vecs.own .responses).pc t) ((s.base.vecs.own .responses).vec.thr t)
    ((s.base.vecs.own .responses).seen t) (roleOf .responses (s.base.pc t) (s.at' t))
  have h3 := roleWork_le (i := .duration) (c .duration).n R ((s.base.vecs.own .duration).pc t) ((s.base.vecs.own .duration).vec.thr t)
    ((s.base.vecs.own .duration).seen t) (roleOf .duration (s.base.pc t) (s.at' t))
  have e : ((c .requests).n + (c .responses).n + (c .duration).n + 3) * (4 * R + 2) =
    ((c .requests).n + 1) * (4 * R + 2) + ((c .responses).n + 1) * (4 * R + 2) + ((c .duration).n + 1) * (4 * R + 2) := by ring
  unfold placeCost
  rw [e]
  unfold vecWork
  omega

theorem taskWork_le (c : Vec → ShardConf Key) (R : Nat) (s : ESys) (t : Tid) : taskWork c R s t ≤ 31 * placeCost c R := by
  have h1 := Nat.mul_le_mul_right (placeCost c R) (rank_le (s.base.pc t) (s.at' t))
  have h2 := vecWork_sum c R s t
  unfold taskWork
  omega

/-- At a later place there is less to do. -/
theorem work_rank (c : Vec → ShardConf Key) (R : Nat) {s s' : ESys} {t : Tid}
    (h : rank (s'.base.pc t) (s'.at' t) < rank (s.base.pc t) (s.at' t)) : taskWork c R s' t < taskWork c R s t := by
  have h1 := Nat.mul_le_mul_right (placeCost c R) h
  have h2 := vecWork_sum c R s' t
  rw [Nat.succ_mul] at h1
  unfold taskWork
  omega

/-- At the same place, and further on a vector, there is less to do. -/
theorem work_vec (c : Vec → ShardConf Key) (R : Nat) {s s' : ESys} {t : Tid}
    (h : rank (s'.base.pc t) (s'.at' t) = rank (s.base.pc t) (s.at' t)) (i : Vec) (hi : vecWork c R s' t i < vecWork c R s t i)
    (hj : ∀ j, j ≠ i → vecWork c R s' t j = vecWork c R s t j) : taskWork c R s' t < taskWork c R s t := by
  unfold taskWork
  rw [h]
  cases i with
  | requests => rw [hj .responses (by simp), hj .duration (by simp)]; omega
  | responses => rw [hj .requests (by simp), hj .duration (by simp)]; omega
  | duration => rw [hj .responses (by simp), hj .requests (by simp)]; omega

/-! ## Steps -/

/-- A step of the middleware on a vector leads to a later place, or it is inside of `with_labels` or `get_metric`. -/
theorem moves_rank {t : Tid} {p p' : Pc} {i : Vec} {e : LVEvent Lab i.Call i.groups.n} (h : Moves t p (.on i e) p')
    (hp : ∀ r k, p ≠ .inside r k) (q : Hpc) : rank p' q < rank p q ∨
      p' = p ∧ ((∃ g, p.role i = .encode g ∧ InEncode t e) ∨ ∃ k, p.role i = .get k ∧ InGet t k e) := by
  cases h with
  | collect r k => exact absurd rfl (hp r k)
  | reqEncode r h => exact .inr ⟨rfl, .inl ⟨_, rfl, h⟩⟩
  | timerEncode r h => exact .inr ⟨rfl, .inl ⟨_, rfl, h⟩⟩
  | resEncode r st h => exact .inr ⟨rfl, .inl ⟨_, rfl, h⟩⟩
  | reqGet r k h => exact .inr ⟨rfl, .inr ⟨_, rfl, h⟩⟩
  | durGet r k st h => exact .inr ⟨rfl, .inr ⟨_, rfl, h⟩⟩
  | resGet r st k h => exact .inr ⟨rfl, .inr ⟨_, rfl, h⟩⟩
  | _ => left; simp only [rank]; decide

section
variable {m : Mode} {c : ShardConf Key} {i : Vec} {t : Tid} {x y : LVSys (Rodeo Lab) Lab i.Call i.groups.n}
  {e : LVEvent Lab i.Call i.groups.n} {R : Nat}

theorem encode_less (hs : LVStep m threadedRodeo i.groups c x e y) (he : InEncode t e) (hn : e ≠ .lab (.panic t)) {g : i.groups.Group}
    (hy : ∃ index ks rest, y.lab.pc t = .encoding g index ks rest ∧ y.lab.pc t ≠ x.lab.pc t)
    (hr : ∀ g index ks rest, x.lab.pc t = .encoding g index ks rest → rest.length ≤ 1)
    (hd : ∀ u env rest ks, x.lab.pc t ≠ .decoding u env rest ks) :
    encodeWork (y.lab.pc t) < encodeWork (x.lab.pc t) := by
  cases he with
  | panic => exact absurd rfl hn
  | tau =>
    obtain ⟨index, ks, rest, h1, h2⟩ := hy
    cases hs with
    | lab hl =>
      generalize hle : (LabelEvent.tau t : LabelEvent Lab i.groups.n) = le at hl
      cases hl with
      | @encodeStart t' g' index' hp _ =>
        cases hle
        rw [hp, h1]
        show _ < 3
        unfold encodeWork; split <;> simp_all
      | @intern t' g' index' ks' r j rest' k z hp he =>
        cases hle
        have := hr _ _ _ _ hp
        obtain rfl : rest' = [] := List.eq_nil_of_length_eq_zero (by simpa using this)
        rw [hp]
        have e2 : (LabelSys.goto (S := Rodeo Lab) { x.lab with heap := x.lab.heap.set r z } t (.encoding g' index' (ks' ++ [k]) [])).pc t = .encoding g' index' (ks' ++ [k]) [] := label_goto_self _ _ _
        show encodeWork ((LabelSys.goto (S := Rodeo Lab) _ t _).pc t) < _
        rw [e2]
        exact Nat.lt_succ_self _
      | decodeStart hp => cases hle; rw [label_goto_self] at h1; cases h1
      | resolve hp => cases hle; rw [label_goto_self] at h1; cases h1
      | foreign he => cases hle; exact absurd rfl h2
      | _ => cases hle

theorem get_less (hs : LVStep m threadedRodeo i.groups c x e y) {k : Key} (he : InGet t k e) (hn : e ≠ .vec (.panic t))
    (hg : SPc.Getting k (x.vec.thr t).pc) : getWork (y.vec.thr t).pc < getWork (x.vec.thr t).pc := by
  have no : ∀ {q : SPc Key i.Call}, (x.vec.thr t).pc = q → (¬ SPc.Getting k q) → False := fun e h => h (e ▸ hg)
  have key : ∀ {p q : SPc Key i.Call} {v : SSys Key i.Call}, (x.vec.thr t).pc = p →
      v.thr t = ⟨q, (x.vec.thr t).guards⟩ → getWork q < getWork p →
      getWork (v.thr t).pc < getWork (x.vec.thr t).pc := fun e f h => by rw [e, f]; exact h
  cases he with
  | start =>
    cases hs with
    | vec hv _ => cases hv with | startGet _ _ hp => exact key hp (goto_thr _ _ _) (Nat.lt_succ_self _)
  | lockR j =>
    cases hs with
    | vec hv _ =>
      cases hv with
      | lockRead _ k' hp hl => exact key hp (goto_thr _ _ _) (Nat.lt_succ_self _)
      | passLock _ _ acc hp => exact (no hp (by simp [SPc.Getting])).elim
  | lockW j =>
    cases hs with
    | vec hv _ =>
      cases hv with
      | lockWrite _ k' hp hl => exact key hp (goto_thr _ _ _) (Nat.lt_succ_self _)
      | rmLock _ _ hp => exact (no hp (by simp [SPc.Getting])).elim
  | insert =>
    cases hs with
    | vec hv _ => cases hv with | insertNew _ _ l hp hf hl => exact key hp (goto_thr _ _ _) (Nat.lt_succ_self _)
  | silent =>
    cases hs with
    | vec hv _ =>
      cases hv with
      | miss _ k' hp => exact key hp (goto_thr _ _ _) (Nat.lt_succ_self _)
      | missRelease _ k' hp => exact key hp (goto_thr _ _ _) (Nat.lt_succ_self _)
      | insertFound _ k' us hp => exact key hp (goto_thr _ _ _) (Nat.lt_succ_self _)
      | downgrade _ k' hp => exact key hp (goto_thr _ _ _) (Nat.lt_succ_self _)
      | rmRelease _ _ hp => exact (no hp (by simp [SPc.Getting])).elim
      | abort _ _ _ _ _ hp => exact (no hp (by simp [SPc.Getting])).elim
      | passNext _ _ _ _ _ hp => exact (no hp (by simp [SPc.Getting])).elim
  | panic => exact absurd rfl hn

theorem scan_done {n R sh j : Nat} {lab lab' : LabelPc Lab i.groups.n} {seen seen' : Option (Key × (Fin i.groups.n → Lab))}
    {acc snap : List (Key × List i.Call)} {p q : SPc Key i.Call} (hp : p = .scan sh j acc snap) (hq : q = .scan sh j acc snap)
    (hj : j < R) (h : entryDone lab seen < entryDone lab' seen') (h' : entryDone lab' seen' ≤ 3) :
    passLeft n R lab' seen' q < passLeft n R lab seen p := by
  subst hp hq
  unfold passLeft
  dsimp only
  omega

theorem entryDone_le {V : Type} {n : Nat} (lab : LabelPc V n) (seen : Option (Key × (Fin n → V))) : entryDone lab seen ≤ 3 := by
  unfold entryDone; split <;> decide

/-- A step of a pass. -/
theorem pass_less {s s' : Sys} (hx : x = s.vecs.at i) (hy : y = s'.vecs.at i)
    (hs : LVStep m threadedRodeo i.groups c x e y) (he : Collects t i s e s') (ht : (Event.on i e).Of t)
    (hn : e ≠ .lab (.panic t) ∧ e ≠ .vec (.panic t))
    (hsn : ∀ sh j acc snap, (x.vec.thr t).pc = .scan sh j acc snap → SnapOk (x.vec.shards sh) snap)
    (hR : ∀ sh, (x.vec.shards sh).length ≤ R)
    (hr : ∀ u env rest ks, x.lab.pc t = .decoding u env rest ks → rest.length ≤ 1)
    (h : Passing (x.lab.pc t) (x.vec.thr t).pc (x.seen t)) :
    passLeft c.n R (y.lab.pc t) (y.seen t) (y.vec.thr t).pc < passLeft c.n R (x.lab.pc t) (x.seen t) (x.vec.thr t).pc := by
  have no : ∀ {q : SPc Key i.Call}, (x.vec.thr t).pc = q → (∀ l sn, ¬ Passing (V := Lab) (n := i.groups.n) l q sn) → False :=
    fun e h' => h' _ _ (e ▸ h)
  have lt : ∀ {sh j : Nat} {acc snap : List (Key × List i.Call)} {k : Key} {old : List i.Call},
      (x.vec.thr t).pc = .scan sh j acc snap → snap[j]? = some (k, old) → j < R := by
    intro sh j acc snap k old hp hk
    have h1 := (hsn sh j acc snap hp).length_eq
    have h2 := (List.getElem?_eq_some_iff.1 hk).1
    have h3 := hR sh
    omega
  cases e with
  | shown => exact he.elim
  | lab f =>
    cases f with
    | tau u =>
      obtain ⟨sh, j, acc, snap, k, us, env, rest, ks, a1, a2, a3, a4, a5⟩ := he
      have e1 : y.lab.pc t = .decoding k env rest ks := by rw [hy]; exact a4
      have e2 : (x.vec.thr t).pc = .scan sh j acc snap := by rw [hx]; exact a1
      have e3 : x.seen t = none := by rw [hx]; exact a3
      have e4 : y.lab.pc t ≠ x.lab.pc t := by rw [hy, hx]; exact a5
      have hj : j < R := by
        have h1 := (List.getElem?_eq_some_iff.1 a2).1
        have h2 := hR sh
        rw [hx] at h2
        exact Nat.lt_of_lt_of_le h1 h2
      cases hs with
      | lab hl =>
        refine scan_done e2 e2 hj ?_ (entryDone_le _ _)
        show entryDone _ (x.seen t) < entryDone _ (x.seen t)
        rw [e3, e1]
        generalize hle : (LabelEvent.tau u : LabelEvent Lab i.groups.n) = le at hl
        cases hl with
        | decodeStart hp =>
          cases hle
          cases ht
          rw [hp]
          show 0 < _
          cases rest <;> exact Nat.succ_pos _
        | @resolve t' u' env' r j' rest' k' ks' v hp hd =>
          cases hle
          cases ht
          have := hr _ _ _ _ hp
          obtain rfl : rest' = [] := List.eq_nil_of_length_eq_zero (by simpa using this)
          rw [hp]
          rw [label_goto_self] at e1
          cases e1
          exact Nat.lt_succ_self _
        | encodeStart hp => cases hle; cases ht; rw [label_goto_self] at e1; cases e1
        | intern hp =>
          cases hle
          cases ht
          rw [label_goto_self] at e1; cases e1
        | foreign => cases hle; exact absurd rfl e4
        | _ => cases hle
    | encoded => exact he.elim
    | panic u => have : u = t := ht; subst this; exact absurd rfl hn.1
    | decoded u k g =>
      have : u = t := ht
      subst this
      cases hs with
      | lab hl =>
        cases hl with
        | decodeEnd hp hb =>
          have hpass := h
          rw [hp] at hpass
          have hex : ∃ sh j acc snap old, (x.vec.thr u).pc = .scan sh j acc snap ∧ snap[j]? = some (k, old) ∧ x.seen u = none := by
            generalize (x.vec.thr u).pc = q at hpass
            generalize x.seen u = sn at hpass
            cases hpass with
            | decode sh j acc snap _ old ho => exact ⟨sh, j, acc, snap, old, rfl, ho, rfl⟩
          obtain ⟨sh, j, acc, snap, old, h1, h2, h3⟩ := hex
          refine scan_done h1 h1 (lt h1 h2) ?_ (entryDone_le _ _)
          show entryDone _ (x.seen u) < entryDone _ (Function.update x.seen u _ u)
          rw [Function.update_self, h3, hp]
          exact Nat.lt_succ_self _
  | vec f =>
    cases hs with
    | vec hv _ =>
      cases f with
      | lockR u j =>
        have : u = t := ht
        subst this
        cases hv with
        | lockRead _ k hp => exact (no hp (by rintro _ _ ⟨⟩)).elim
        | passLock _ _ acc hp hjn =>
          rw [goto_thr, hp]
          show passLeft c.n R (x.lab.pc u) (x.seen u) _ < _
          have : (c.n - j) * (4 * R + 2) = (c.n - j - 1) * (4 * R + 2) + (4 * R + 2) := by
            conv_lhs => rw [show c.n - j = (c.n - j - 1) + 1 by omega]
            exact Nat.succ_mul _ _
          unfold passLeft
          dsimp only
          omega
      | silent u =>
        have : u = t := ht
        subst this
        have he' : ((s'.vecs.own i).vec.thr u).pc ≠ .idle := he
        have he' : ((s'.vecs.at i).vec.thr u).pc ≠ .idle := he'
        rw [← hy] at he'
        cases hv with
        | passNext _ sh j acc snap hp hj =>
          rw [goto_thr, hp]
          show passLeft c.n R (x.lab.pc u) (x.seen u) _ < _
          unfold passLeft
          dsimp only
          rw [Nat.sub_sub]
          omega
        | abort _ _ _ _ _ hp => exact absurd (by show ((x.vec.goto u .idle).thr u).pc = _; rw [goto_thr]) he'
        | miss _ k hp => exact (no hp (by rintro _ _ ⟨⟩)).elim
        | missRelease _ k hp => exact (no hp (by rintro _ _ ⟨⟩)).elim
        | insertFound _ k us hp => exact (no hp (by rintro _ _ ⟨⟩)).elim
        | downgrade _ k hp => exact (no hp (by rintro _ _ ⟨⟩)).elim
        | rmRelease _ k hp => exact (no hp (by rintro _ _ ⟨⟩)).elim
      | panic u => have : u = t := ht; subst this; exact absurd rfl hn.2
      | _ => exact he.elim

theorem shown_less {k : Key} {g : i.groups.Group} {us : List i.Call}
    (hs : LVStep m threadedRodeo i.groups c x (.shown t k g us) y) (hR : ∀ sh, (x.vec.shards sh).length ≤ R)
    (h : Passing (x.lab.pc t) (x.vec.thr t).pc (x.seen t)) :
    passLeft c.n R (y.lab.pc t) (y.seen t) (y.vec.thr t).pc < passLeft c.n R (x.lab.pc t) (x.seen t) (x.vec.thr t).pc := by
  cases hs with
  | shown hv hseen =>
    cases hv with
    | emit _ sh j acc snap _ old _ cur hp hc ho h3 h4 =>
      rw [goto_thr, hp]
      show passLeft c.n R (x.lab.pc t) (Function.update x.seen t none t) _ < _
      rw [hp] at h
      rw [Function.update_self, hseen]
      rw [hseen] at h
      have hl : x.lab.pc t = .idle := by
        generalize x.lab.pc t = q at h
        cases h; rfl
      rw [hl]
      have h1 := (List.getElem?_eq_some_iff.1 hc).1
      have h2 := hR sh
      unfold passLeft entryDone
      dsimp only
      omega

end

end Measured.Server
