import Verif.Proofs.PmtFaulty
/-!
Failing commits over a pruning database: what the trie refers to is still there, whatever part of the batches the database has done.
-/

set_option autoImplicit false

namespace Verif.Pmt

open PT
open Classical

variable {K : Keccak} {P : Prop} {S : Bytes → Prop} {d : Db} {Q : Spec.Map → Prop} {R : List H256}

/-- A node depends on what it refers to without having read it. -/
theorem Rep.of_stored {W : Bytes → Prop} {n : Node} {t : PT} (h : Rep K S n t) (hu : ∀ u, 0 < stored K t n u → W (enc K u)) : Rep K W n t := by
  induction h with
  | empty => exact .empty
  | leaf k v => exact .leaf k v
  | ext p h ih => exact .ext p (ih hu)
  | branch v h ih =>
    rename_i ns ts
    refine .branch v fun i => ih i fun u hi => hu u ?_
    rw [stored_branch]
    exact Nat.lt_of_lt_of_le hi (Finset.single_le_sum (f := fun i => stored K (ts i) (ns i) u) (fun _ _ => Nat.zero_le _) (Finset.mem_univ i))
  | @hash t hl h =>
    refine .hash hl ⟨hu t ?_, below_of_count fun u hu' => hu u ?_⟩
    · rw [stored_hash]
      have : here K t t = 1 := if_pos ⟨rfl, hl⟩
      omega
    · rw [stored_hash]
      omega

/-- A failing commit over a pruning database. -/
theorem LightInv.failCommit (hd : Holed K d) {tr : Trie} {m : Spec.Map} (h : LightInv K False Q R d tr m) {tr' : Trie}
    (hroot : tr'.root = tr.root) (hp : tr'.passingKeys = tr.passingKeys) {l : Written} (hl : ∀ e ∈ l, EntryOk K e) {del : List H256}
    (hdel : ∀ x ∈ del, x ∈ tr.passingKeys) (hnc : NoClash K (d.insertBatch l).log) :
    LightInv K False Q R ((d.insertBatch l).removeBatch del) tr' m := by
  obtain ⟨t, L, h1, h2, h3, h4, h5, h6, h7, h8, h9⟩ := h
  have hlog : ∀ b, InLog d b → InLog (d.insertBatch l) b := fun b hb => (insertBatch_log _ _).2 (.inl hb)
  refine ⟨t, L, ?_, by rw [hroot]; exact h2, h3, h4, h5, by rw [hp]; exact h6, by rw [hroot]; exact h7, fun u hu => ?_, False.elim⟩
  · rw [hroot]
    refine h1.of_stored fun u hu => ?_
    obtain ⟨k1, k2, k3⟩ := stored_held h1 h3 hu
    have hb := hd.within hl hnc _ _ k2.1
    unfold Has
    rw [removeBatch_keeps _ _ ?_]
    · exact hb
    · intro hmem
      have hin := hdel _ hmem
      rw [h6] at hin
      obtain ⟨u', hu', he⟩ := List.mem_map.1 hin
      have hu2 := (h8 u' hu').2
      have e2 : enc K u' = enc K u := hnc _ (hlog _ hu2.1.1) _ (hlog _ (hd.inLog _ k2.1)) he
      have e3 : u = u' := enc_inj (S := InLog (d.insertBatch l)) hnc k3 hu2.2 (k2.2.mono fun b hb => hlog _ (hd.inLog _ hb))
        (hu2.1.2.mono hlog) e2.symm
      subst e3
      have := h7 u
      have := List.count_pos_iff.2 hu'
      omega
  · obtain ⟨a, b, c⟩ := h8 u hu
    have hl' : ∀ b, InLog d b → InLog ((d.insertBatch l).removeBatch del) b := by
      intro b hb
      unfold InLog
      rw [removeBatch_log]
      exact hlog b hb
    exact ⟨a, ⟨hl' _ b.1, b.2.mono hl'⟩, c⟩

theorem removeBatch_nil (d : Db) : d.removeBatch [] = d := rfl

/-- A failing commit in a system over a pruning database and in one over an archive database. -/
theorem Twin.fail {sl sa sa' : Sys} {σ : Spec.State} (h : Twin K False sl sa σ) {i : Nat} {f : Fault} {r : Ret}
    (hs : sa.stepF K (.fail i f) = .ok (sa', r)) (hnc : NoClash K sa'.db.log) :
    ∃ sl', sl.stepF K (.fail i f) = .ok (sl', r) ∧ Twin K False sl' sa' σ := by
  obtain ⟨tr, m, h1, h2, h3⟩ := h.one
  cases i with
  | succ i =>
    have ht : sa.tries[i + 1]? = none := by rw [h1]; rfl
    simp only [Sys.stepF, ht] at hs
    cases hs
    exact ⟨sl, by simp only [Sys.stepF, h.tries, ht], h⟩
  | zero =>
    have ht : sa.tries[0]? = some tr := by rw [h1]; rfl
    have hl : sl.tries[0]? = some tr := by rw [h.tries, h1]; rfl
    have hm : σ.maps[0]? = some m := by rw [h2]; rfl
    have g := h.inv.tries.2 0 tr m ht hm
    obtain ⟨tr', db', e, g1, g2, g3, g4⟩ := Trie.failCommit_ok h.inv.db g f
    simp only [Sys.stepF, ht, e] at hs
    cases hs
    obtain ⟨tr1, t, w, hc, -⟩ := Trie.writeRoot_ok g
    obtain ⟨w1, w2⟩ := Trie.writeRoot_root w
    have hlog : ∀ l : Written, (sl.db.insertBatch l).log = (sa.db.insertBatch l).log := fun l => by
      rw [insertBatch_log_eq, insertBatch_log_eq, h.log]
    have inv' : SysInv K True ⟨db', sa.tries.set 0 tr', sa.roots⟩ σ := by
      refine ⟨g1, ?_, h.inv.roots.mono (fun _ _ h => h.mono g2)⟩
      refine (h.inv.tries.mono (fun _ _ h => h.mono g2)).set_left 0 fun y hy => ?_
      rw [hm] at hy
      cases hy
      exact g4
    unfold Trie.failCommit at e
    rw [w] at e
    simp only [Res.ok_bind] at e
    cases f with
    | inserting done =>
      cases e
      have hne := EntryOk.filter hc (fun e => done e.1)
      refine ⟨⟨sl.db.insertBatch (tr1.cache.filter (fun e => done e.1)), sl.tries.set 0 { tr1 with cache := [] }, sl.roots⟩, ?_, inv', ?_, h.roots, hlog _,
        h.holed.insertBatch hne, { tr1 with cache := [] }, m, ?_, h2, ?_⟩
      · simp only [Sys.stepF, hl, Trie.failCommit, w, Res.ok_bind]
        rfl
      · simp only [h.tries]
      · simp only [h1]; rfl
      · exact h3.failCommit (del := []) (tr' := { tr1 with cache := [] }) h.holed w1 w2 hne (by simp) (by rw [hlog]; exact hnc)
    | removing done =>
      cases e
      have hnc' : NoClash K (sl.db.insertBatch tr1.cache).log := by
        rw [hlog]
        have hnc2 : NoClash K ((sa.db.insertBatch tr1.cache).removeBatch _).log := hnc
        rwa [removeBatch_log] at hnc2
      refine ⟨⟨(sl.db.insertBatch tr1.cache).removeBatch ((tr1.passingKeys.filter (fun k => !(tr1.genKeys.contains k))).filter done),
        sl.tries.set 0 { tr1 with cache := [] }, sl.roots⟩, ?_, inv', ?_, h.roots, ?_,
        (h.holed.insertBatch hc).removeBatch _, { tr1 with cache := [] }, m, ?_, h2, ?_⟩
      · simp only [Sys.stepF, hl, Trie.failCommit, w, Res.ok_bind]
        rfl
      · simp only [h.tries]
      · simp only [removeBatch_log, hlog]
      · simp only [h1]; rfl
      · refine h3.failCommit (tr' := { tr1 with cache := [] }) h.holed w1 w2 hc (fun x hx => ?_) hnc'
        have := (List.mem_filter.1 (List.mem_filter.1 hx).1).1
        rwa [w2] at this

theorem Sys.stepF_log {s s' : Sys} {op : FOp} {r : Ret} (h : s.stepF K op = .ok (s', r)) : ∀ b ∈ s.db.log, b ∈ s'.db.log := by
  cases op with
  | call op => exact Sys.step_log h
  | fail i f =>
    intro b hb
    simp only [Sys.stepF] at h
    split at h
    · cases h; exact hb
    · rename_i tr _
      split at h
      · cases h
      · rename_i tr' db' e
        cases h
        unfold Trie.failCommit at e
        rcases w : tr.writeRoot K with x | ⟨tr1, x⟩
        · rw [w] at e; cases e
        rw [w] at e
        simp only [Res.ok_bind] at e
        cases f with
        | inserting done => cases e; exact (insertBatch_log _ _).2 (.inl hb)
        | removing done =>
          cases e
          show b ∈ ((s.db.insertBatch _).removeBatch _).log
          rw [removeBatch_log]
          exact (insertBatch_log _ _).2 (.inl hb)

theorem Sys.runF_log {s s' : Sys} {ops : List FOp} {rs : List Ret} (h : s.runF K ops = .ok (s', rs)) : ∀ b ∈ s.db.log, b ∈ s'.db.log := by
  induction ops generalizing s rs with
  | nil => cases h; exact fun b hb => hb
  | cons op t ih =>
    obtain ⟨s1, r, rs', h1, h2, _⟩ := Sys.runF_cons h
    exact fun b hb => ih h2 b (Sys.stepF_log h1 b hb)

/-- The same program with failing commits over both databases. -/
theorem Twin.runF {sl sa sa' : Sys} {σ : Spec.State} {ops : List FOp} {rs : List Ret} (h : Twin K False sl sa σ) (hfit : ∀ op ∈ Spec.calls ops, Spec.Fits op)
    (hg : Spec.GentleFrom σ (Spec.calls ops)) (hrun : sa.runF K ops = .ok (sa', rs)) (hnc : NoClash K sa'.db.log) :
    ∃ sl', sl.runF K ops = .ok (sl', rs) ∧ Twin K False sl' sa' ((Spec.calls ops).foldl Spec.step σ) := by
  induction ops generalizing sl sa σ rs with
  | nil => cases hrun; exact ⟨_, rfl, h⟩
  | cons op t ih =>
    obtain ⟨s1, r, rs', h1, h2, rfl⟩ := Sys.runF_cons hrun
    have hn := hnc.subset (Sys.runF_log h2)
    cases op with
    | call op =>
      obtain ⟨sl1, e1, g1⟩ := h.step (hfit op (by simp [Spec.calls])) hg.1 False.elim h1 hn
      obtain ⟨sl', e2, g2⟩ := ih g1 (fun o ho => hfit o (by simp [Spec.calls, ho])) hg.2 h2
      exact ⟨sl', Sys.runF_of e1 e2, g2⟩
    | fail i f =>
      obtain ⟨sl1, e1, g1⟩ := h.fail h1 hn
      obtain ⟨sl', e2, g2⟩ := ih g1 hfit hg h2
      exact ⟨sl', Sys.runF_of e1 e2, g2⟩

end Verif.Pmt
