import Verif.Pmt.Faulty
import Verif.Proofs.PmtLight
/-!
Failing commits: the trie is as before, whatever part of the batches the database has done.
-/

set_option autoImplicit false

namespace Verif.Pmt

open PT

variable {K : Keccak} {P : Prop} {db : Db}

theorem EntryOk.filter {l : Written} (h : ∀ e ∈ l, EntryOk K e) (p : H256 × Bytes → Bool) : ∀ e ∈ l.filter p, EntryOk K e :=
  fun e he => h e (List.mem_filter.1 he).1

theorem Trie.writeRoot_root {tr tr' : Trie} {h : H256} (e : tr.writeRoot K = .ok (tr', h)) :
    tr'.root = tr.root ∧ tr'.passingKeys = tr.passingKeys := by
  unfold Trie.writeRoot at e
  rcases hw : writeNode K tr.root with x | ⟨x, w⟩
  · rw [hw] at e; cases e
  · rw [hw] at e
    simp only [Res.ok_bind] at e
    cases x <;> (cases e; exact ⟨rfl, rfl⟩)

/-- The hash written depends only on the root. -/
theorem Trie.writeRoot_hash {tr tr0 tr' tr0' : Trie} {h h0 : H256} (hr : tr.root = tr0.root) (e : tr.writeRoot K = .ok (tr', h))
    (e0 : tr0.writeRoot K = .ok (tr0', h0)) : h = h0 := by
  unfold Trie.writeRoot at e e0
  rw [← hr] at e0
  rcases hw : writeNode K tr.root with x | ⟨x, w⟩
  · rw [hw] at e; cases e
  · rw [hw] at e e0
    simp only [Res.ok_bind] at e e0
    cases x <;> (cases e; cases e0; rfl)

/-- A failing commit on an archive database. -/
theorem Trie.failCommit_ok (hd : DbInv K db) {tr : Trie} {m : Spec.Map} (h : HandleInv K P db tr m) (f : Fault) :
    ∃ tr' db', tr.failCommit K db f = .ok (tr', db') ∧ DbInv K db' ∧ (∀ b ∈ db.log, b ∈ db'.log) ∧ tr'.root = tr.root ∧
      HandleInv K P db' tr' m := by
  obtain ⟨tr1, t, e, hc, -⟩ := Trie.writeRoot_ok h
  obtain ⟨hroot, -⟩ := Trie.writeRoot_root e
  obtain ⟨_, t0, g1, g2⟩ := h
  have key : ∀ l : Written, (∀ b ∈ db.log, b ∈ (db.insertBatch l).log) ∧
      HandleInv K P (db.insertBatch l) { tr1 with cache := [] } m := by
    intro l
    have hl : ∀ b ∈ db.log, b ∈ (db.insertBatch l).log := fun b hb => (insertBatch_log _ _).2 (.inl hb)
    refine ⟨hl, (by intro e he; cases he), t0, ?_, g2⟩
    show RepRoot K _ tr1.root t0
    rw [hroot]
    exact g1.mono hl
  unfold Trie.failCommit
  rw [e]
  simp only [Res.ok_bind]
  cases f with
  | inserting done => exact ⟨_, _, rfl, hd.insertBatch (EntryOk.filter hc _), (key _).1, hroot, (key _).2⟩
  | removing done =>
    have hi := hd.insertBatch hc
    have ha := removeBatch_archive hi.archive ((tr1.passingKeys.filter (fun k => !(tr1.genKeys.contains k))).filter done)
    dsimp only
    rw [ha]
    exact ⟨_, _, rfl, hi, (key _).1, hroot, (key _).2⟩

theorem Sys.runF_cons {s s' : Sys} {op : FOp} {ops : List FOp} {rs : List Ret} (h : s.runF K (op :: ops) = .ok (s', rs)) :
    ∃ s1 r rs', s.stepF K op = .ok (s1, r) ∧ s1.runF K ops = .ok (s', rs') ∧ rs = r :: rs' := by
  unfold Sys.runF at h
  rcases h1 : s.stepF K op with e | ⟨s1, r⟩
  · rw [h1] at h; cases h
  · rw [h1] at h
    simp only at h
    rcases h2 : s1.runF K ops with e | ⟨s2, rs'⟩
    · rw [h2] at h; cases h
    · rw [h2] at h
      cases h
      exact ⟨s1, r, rs', rfl, h2, rfl⟩

theorem Sys.runF_of {s s1 s' : Sys} {op : FOp} {ops : List FOp} {r : Ret} {rs : List Ret} (h1 : s.stepF K op = .ok (s1, r))
    (h2 : s1.runF K ops = .ok (s', rs)) : s.runF K (op :: ops) = .ok (s', r :: rs) := by
  unfold Sys.runF
  rw [h1]
  simp only [h2]

theorem Sys.run_of {s s1 s' : Sys} {op : Op} {ops : List Op} {r : Ret} {rs : List Ret} (h1 : s.step K op = .ok (s1, r))
    (h2 : s1.run K ops = .ok (s', rs)) : s.run K (op :: ops) = .ok (s', r :: rs) := by
  unfold Sys.run
  rw [h1]
  simp only [h2]

/-- A system with failing commits and one without. -/
structure Alikes (K : Keccak) (s s0 : Sys) (σ : Spec.State) : Prop where
  inv : SysInv K False s σ
  inv0 : SysInv K False s0 σ
  tries : Both (fun a b => a.root = b.root) s.tries s0.tries
  roots : s.roots = s0.roots

theorem Alikes.new : Alikes K (Sys.new false) (Sys.new false) ⟨[], []⟩ := ⟨SysInv.new, SysInv.new, Both.nil, rfl⟩

theorem NoClash.left {a b : List Bytes} (h : NoClash K (a ++ b)) : NoClash K a := h.subset (fun _ hx => List.mem_append_left _ hx)
theorem NoClash.right {a b : List Bytes} (h : NoClash K (a ++ b)) : NoClash K b := h.subset (fun _ hx => List.mem_append_right _ hx)

theorem Alikes.alike {s s0 : Sys} {σ : Spec.State} (h : Alikes K s s0 σ) (hnc : NoClash K (s.db.log ++ s0.db.log)) : Alike s.db s0.db := by
  intro x b b' hb hb'
  have h1 := h.inv.db.sound _ _ hb
  have h2 := h.inv0.db.sound _ _ hb'
  exact hnc b (List.mem_append_left _ h1.2) b' (List.mem_append_right _ h2.2) (h1.1.symm.trans h2.1)

/-- Two systems one of which has made the calls the other has made. -/
theorem Alikes.step {s s0 s0' : Sys} {σ : Spec.State} (h : Alikes K s s0 σ) {op : Op} {r : Ret} (hop : Spec.Fits op) (hs : s0.step K op = .ok (s0', r))
    (hnc : NoClash K (s.db.log ++ s0.db.log)) :
    ∃ s', s.step K op = .ok (s', r) ∧ (NoClash K (s'.db.log ++ s0'.db.log) → Alikes K s' s0' (Spec.step σ op)) := by
  have hw := h.alike hnc
  have hR := h.inv.db.reads hnc.left
  have hR0 := h.inv0.db.reads hnc.right
  have hi0 : NoClash K s0'.db.log → SysInv K False s0' (Spec.step σ op) := by
    rcases h.inv0.step (op := op) hop False.elim hnc.right with ⟨s', r', e, _, g⟩ | ⟨_, _, _, _, _, _, _, e⟩
    · rw [hs] at e
      cases e
      exact g
    · rw [hs] at e; cases e
  have hi : ∀ {s' : Sys} {r' : Ret}, s.step K op = .ok (s', r') → NoClash K s'.db.log → SysInv K False s' (Spec.step σ op) := by
    intro s' r' hs'
    rcases h.inv.step (op := op) hop False.elim hnc.left with ⟨s', r', e, _, g⟩ | ⟨_, _, _, _, _, _, _, e⟩
    · rw [hs'] at e
      cases e
      exact g
    · rw [hs'] at e; cases e
  have done : ∀ {s' : Sys}, s.step K op = .ok (s', r) →
      (NoClash K (s'.db.log ++ s0'.db.log) → Both (fun a b => a.root = b.root) s'.tries s0'.tries ∧ s'.roots = s0'.roots) →
      ∃ s', s.step K op = .ok (s', r) ∧ (NoClash K (s'.db.log ++ s0'.db.log) → Alikes K s' s0' (Spec.step σ op)) :=
    fun e g => ⟨_, e, fun hn => ⟨hi e hn.left, hi0 hn.right, (g hn).1, (g hn).2⟩⟩
  cases op with
  | new =>
    cases hs
    exact done rfl (fun _ => ⟨h.tries.append rfl, h.roots⟩)
  | openAt j =>
    rcases hj : s0.roots[j]? with _ | x
    · simp only [Sys.step, hj] at hs
      cases hs
      refine done (s' := s) ?_ (fun _ => ⟨h.tries, h.roots⟩)
      simp only [Sys.step, h.roots, hj]
    · simp only [Sys.step, hj] at hs
      cases hs
      refine done (s' := { s with tries := s.tries ++ [Trie.atRoot x] }) ?_ (fun _ => ⟨h.tries.append rfl, h.roots⟩)
      simp only [Sys.step, h.roots, hj]
  | insert i k v =>
    rcases ht0 : s0.tries[i]? with _ | tr0
    · have ht := h.tries.none.2 ht0
      simp only [Sys.step, ht0] at hs
      cases hs
      exact done (s' := s) (by simp only [Sys.step, ht]) (fun _ => ⟨h.tries, h.roots⟩)
    · rcases ht : s.tries[i]? with _ | tr
      · rw [h.tries.none.1 ht] at ht0; cases ht0
      have hr : tr.root = tr0.root := h.tries.2 i _ _ ht ht0
      obtain ⟨m, hm, g⟩ := h.inv.tries.some ht
      have g0 := h.inv0.tries.2 i _ _ ht0 hm
      simp only [Sys.step, ht0, Sys.insert] at hs
      by_cases hv : v = []
      · subst hv
        have e : ∀ (t : Trie) d, t.insert d k [] = .ok (t, some "value provided for key is empty") := fun _ _ => rfl
        rw [e] at hs
        cases hs
        refine done (s' := s.put i tr) (by simp only [Sys.step, ht, Sys.insert, e]) (fun _ => ⟨h.tries.set i hr, h.roots⟩)
      · obtain ⟨tr', e, -⟩ := Trie.insert_ok hR g hop.1 hop.2 hv
        obtain ⟨tr0', e0, -⟩ := Trie.insert_ok hR0 g0 hop.1 hop.2 hv
        rw [e0] at hs
        cases hs
        refine done (s' := s.put i tr') (by simp only [Sys.step, ht, Sys.insert, e]) (fun _ => ⟨h.tries.set i ?_, h.roots⟩)
        unfold Trie.insert at e e0
        rw [if_neg (by simpa using hv)] at e e0
        dsimp only at e e0
        rcases hr1 : insertAt s.db v (hops s.db (Trie.path k)) tr.root (Trie.path k) with ⟨ks, e3 | n⟩
        · rw [hr1] at e
          rcases e3 with e3 | e3 <;> cases e
        rcases hr2 : insertAt s0.db v (hops s0.db (Trie.path k)) tr0.root (Trie.path k) with ⟨ks', e3 | n'⟩
        · rw [hr2] at e0
          rcases e3 with e3 | e3 <;> cases e0
        rw [← hr] at hr2
        have := insertAt_same hw v (hops s.db (Trie.path k)) (hops s0.db (Trie.path k)) tr.root (Trie.path k) n n' (by rw [hr1]) (by rw [hr2])
        rw [hr1, hr2] at this
        rw [hr] at hr2
        rw [hr1] at e
        rw [hr2] at e0
        cases this
        cases e
        cases e0
        rfl
  | remove i k =>
    rcases ht0 : s0.tries[i]? with _ | tr0
    · have ht := h.tries.none.2 ht0
      simp only [Sys.step, ht0] at hs
      cases hs
      exact done (s' := s) (by simp only [Sys.step, ht]) (fun _ => ⟨h.tries, h.roots⟩)
    · rcases ht : s.tries[i]? with _ | tr
      · rw [h.tries.none.1 ht] at ht0; cases ht0
      have hr : tr.root = tr0.root := h.tries.2 i _ _ ht ht0
      obtain ⟨m, hm, g⟩ := h.inv.tries.some ht
      have g0 := h.inv0.tries.2 i _ _ ht0 hm
      simp only [Sys.step, ht0, Sys.remove] at hs
      obtain ⟨tr', b, e, -⟩ := Trie.remove_ok hR g k False.elim
      obtain ⟨tr0', b0, e0, -⟩ := Trie.remove_ok hR0 g0 k False.elim
      rw [e0] at hs
      cases hs
      have hb : tr'.root = tr0'.root ∧ b = b0 := by
        unfold Trie.remove at e e0
        dsimp only at e e0
        rcases hr1 : deleteAt s.db (hops s.db (Trie.path k)) tr.root (Trie.path k) with ⟨ks, e3 | n⟩
        · rw [hr1] at e
          rcases e3 with e3 | e3 <;> cases e
        rcases hr2 : deleteAt s0.db (hops s0.db (Trie.path k)) tr0.root (Trie.path k) with ⟨ks', e3 | n'⟩
        · rw [hr2] at e0
          rcases e3 with e3 | e3 <;> cases e0
        rw [← hr] at hr2
        have := deleteAt_same hw (hops s.db (Trie.path k)) (hops s0.db (Trie.path k)) tr.root (Trie.path k) n n' (by rw [hr1]) (by rw [hr2])
        rw [hr1, hr2] at this
        rw [hr] at hr2
        rw [hr1] at e
        rw [hr2] at e0
        cases this
        cases e
        cases e0
        exact ⟨rfl, rfl⟩
      obtain ⟨hroot, rfl⟩ := hb
      exact done (s' := s.put i tr') (by simp only [Sys.step, ht, Sys.remove, e]) (fun _ => ⟨h.tries.set i hroot, h.roots⟩)
  | commit i =>
    rcases ht0 : s0.tries[i]? with _ | tr0
    · have ht := h.tries.none.2 ht0
      simp only [Sys.step, ht0] at hs
      cases hs
      exact done (s' := s) (by simp only [Sys.step, ht]) (fun _ => ⟨h.tries, h.roots⟩)
    · rcases ht : s.tries[i]? with _ | tr
      · rw [h.tries.none.1 ht] at ht0; cases ht0
      have hr : tr.root = tr0.root := h.tries.2 i _ _ ht ht0
      obtain ⟨m, hm, g⟩ := h.inv.tries.some ht
      have g0 := h.inv0.tries.2 i _ _ ht0 hm
      simp only [Sys.step, ht0, Sys.commit] at hs
      obtain ⟨tr', db', t, e, g1, -, -, g2, g3, -, -, g4⟩ := Trie.commit_ok h.inv.db g
      obtain ⟨tr0', db0', t0, e0, f1, -, -, f2, f3, -, -, f4⟩ := Trie.commit_ok h.inv0.db g0
      rw [e0] at hs
      cases hs
      have hh : K (enc K t) = K (enc K t0) := by
        unfold Trie.commit at e e0
        rcases w : tr.writeRoot K with x | ⟨tr1, x⟩
        · rw [w] at e; cases e
        rcases w0 : tr0.writeRoot K with y | ⟨tr2, y⟩
        · rw [w0] at e0; cases e0
        have := Trie.writeRoot_hash hr w w0
        rw [w] at e
        rw [w0] at e0
        simp only [Res.ok_bind] at e e0
        have ex : x = K (enc K t) := by
          split at e
          · cases e
          · cases e
          · cases e
          · cases e; rfl
        have ey : y = K (enc K t0) := by
          split at e0
          · cases e0
          · cases e0
          · cases e0
          · cases e0; rfl
        rw [← ex, ← ey, this]
      refine done (s' := ⟨db', s.tries.set i tr', s.roots ++ [K (enc K t)]⟩) ?_ (fun hn => ⟨h.tries.set i ?_, ?_⟩)
      · simp only [Sys.step, ht, Sys.commit, e]
        rw [hh]
      · have he : enc K t = enc K t0 := hn _ (List.mem_append_left _ g2.1) _ (List.mem_append_right _ f2.1) hh
        rw [g4 hn.left, f4 hn.right, top_of_enc g3 f3 he]
      · show s.roots ++ _ = s0.roots ++ _
        rw [h.roots, hh]
  | proof i k =>
    rcases ht0 : s0.tries[i]? with _ | tr0
    · have ht := h.tries.none.2 ht0
      simp only [Sys.step, ht0] at hs
      cases hs
      exact done (s' := s) (by simp only [Sys.step, ht]) (fun _ => ⟨h.tries, h.roots⟩)
    · rcases ht : s.tries[i]? with _ | tr
      · rw [h.tries.none.1 ht] at ht0; cases ht0
      have hr : tr.root = tr0.root := h.tries.2 i _ _ ht ht0
      obtain ⟨m, hm, g⟩ := h.inv.tries.some ht
      have g0 := h.inv0.tries.2 i _ _ ht0 hm
      simp only [Sys.step, ht0, Sys.proof] at hs
      rcases Trie.getProof_ok hR0 g0 k with ⟨tr0', l0, e0, -⟩ | ⟨_, _, e0⟩
      swap
      · rw [e0] at hs; cases hs
      rw [e0] at hs
      cases hs
      have key : ∃ tr', tr.getProof K s.db k = .ok (tr', .ok l0) ∧ tr'.root = tr0'.root := by
        obtain ⟨_, t, a1, a2, _⟩ := g
        obtain ⟨l, e1, _⟩ := pathAt_root hR a2 a1 (hops_ge (nibsOf k))
        obtain ⟨_, t', b1, b2, _⟩ := g0
        obtain ⟨l', e2, _⟩ := pathAt_root hR0 b2 b1 (hops_ge (nibsOf k))
        rw [← hr] at e2
        have := pathAt_same hw _ _ _ _ _ _ e1 e2
        unfold Trie.getProof at e0 ⊢
        rw [path_eq, ← hr, e2] at e0
        rw [path_eq, e1, this]
        dsimp only at e0 ⊢
        generalize Trie.encodeAll K _ = q at e0 ⊢
        rcases q with q | ⟨bs, w⟩
        · cases e0
        · simp only [Res.ok_bind] at e0 ⊢
          cases e0
          exact ⟨_, rfl, hr⟩
      obtain ⟨tr', e, hroot⟩ := key
      exact done (s' := s.put i tr') (by simp only [Sys.step, ht, Sys.proof, e]) (fun _ => ⟨h.tries.set i hroot, h.roots⟩)

/-- A failing commit in one of two systems. -/
theorem Alikes.fail {s s0 : Sys} {σ : Spec.State} (h : Alikes K s s0 σ) (i : Nat) (f : Fault) :
    ∃ s' r, s.stepF K (.fail i f) = .ok (s', r) ∧ Alikes K s' s0 σ := by
  rcases ht : s.tries[i]? with _ | tr
  · exact ⟨s, .none, by simp only [Sys.stepF, ht], h⟩
  · obtain ⟨m, hm, g⟩ := h.inv.tries.some ht
    obtain ⟨tr', db', e, g1, g2, g3, g4⟩ := Trie.failCommit_ok h.inv.db g f
    refine ⟨⟨db', s.tries.set i tr', s.roots⟩, .failed "database error", by simp only [Sys.stepF, ht, e], ⟨g1, ?_, ?_⟩, h.inv0, ?_, h.roots⟩
    · refine (h.inv.tries.mono (fun _ _ h => h.mono g2)).set_left i fun y hy => ?_
      rw [hm] at hy
      cases hy
      exact g4
    · exact h.inv.roots.mono (fun _ _ h => h.mono g2)
    · refine h.tries.set_left i fun y hy => ?_
      rw [g3]
      exact h.tries.2 i _ _ ht hy

/-- The program with failing commits returns what the one without returns, or after some of the calls there is a collision. -/
theorem Alikes.total {s s0 s0' : Sys} {σ : Spec.State} {ops : List FOp} {rs : List Ret} (h : Alikes K s s0 σ) (hfit : ∀ op ∈ Spec.calls ops, Spec.Fits op)
    (hrun : s0.run K (Spec.calls ops) = .ok (s0', rs)) (hnc : NoClash K (s.db.log ++ s0.db.log)) :
    (∃ s' rs', s.runF K ops = .ok (s', rs') ∧ Spec.returned ops rs' = rs ∧ Alikes K s' s0' ((Spec.calls ops).foldl Spec.step σ)) ∨
      ∃ pre s1 s2 r1 r2, pre <+: ops ∧ s.runF K pre = .ok (s1, r1) ∧ s0.run K (Spec.calls pre) = .ok (s2, r2) ∧
        ¬ NoClash K (s1.db.log ++ s2.db.log) := by
  induction ops generalizing s s0 σ rs with
  | nil =>
    cases hrun
    exact .inl ⟨s, [], rfl, rfl, h⟩
  | cons op ops ih =>
    cases op with
    | fail i f =>
      obtain ⟨s1, r, e, g⟩ := h.fail i f
      by_cases hn : NoClash K (s1.db.log ++ s0.db.log)
      · rcases ih g hfit hrun hn with ⟨s', rs', a1, a2, a3⟩ | ⟨pre, s', s2, r1, r2, b1, b2, b3, b4⟩
        · exact .inl ⟨s', r :: rs', Sys.runF_of e a1, a2, a3⟩
        · exact .inr ⟨.fail i f :: pre, s', s2, r :: r1, r2, by rw [List.cons_prefix_cons]; exact ⟨rfl, b1⟩, Sys.runF_of e b2, b3, b4⟩
      · exact .inr ⟨[.fail i f], s1, s0, [r], [], by simp, Sys.runF_of e rfl, rfl, hn⟩
    | call op =>
      obtain ⟨s01, r, rs', h1, h2, rfl⟩ := Sys.run_cons hrun
      have hop : Spec.Fits op := hfit op (by simp [Spec.calls])
      obtain ⟨s1, e, g⟩ := h.step hop h1 hnc
      by_cases hn : NoClash K (s1.db.log ++ s01.db.log)
      · rcases ih (g hn) (fun o ho => hfit o (by simp [Spec.calls, ho])) h2 hn with ⟨s', rs', a1, a2, a3⟩ | ⟨pre, s', s2, r1, r2, b1, b2, b3, b4⟩
        · exact .inl ⟨s', r :: rs', Sys.runF_of e a1, by simp only [Spec.returned, a2], a3⟩
        · exact .inr ⟨.call op :: pre, s', s2, r :: r1, r :: r2, by rw [List.cons_prefix_cons]; exact ⟨rfl, b1⟩, Sys.runF_of e b2, Sys.run_of h1 b3, b4⟩
      · exact .inr ⟨[.call op], s1, s01, [r], [r], by simp, Sys.runF_of (rs := []) e rfl, Sys.run_of h1 rfl, hn⟩

end Verif.Pmt
