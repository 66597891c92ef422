import Verif.Props.PmtFault
import Verif.Spec.PmtReach
/-! What the pruning database still stores: C59. -/

set_option autoImplicit false

namespace Verif.Props
open Verif Verif.Pmt PmtEx

variable {K : Keccak}

theorem gentleFrom_append {a b : List Op} {σ : Spec.State} (h : Spec.GentleFrom σ (a ++ b)) :
    Spec.GentleFrom σ a ∧ Spec.GentleFrom (a.foldl Spec.step σ) b := by
  induction a generalizing σ with
  | nil => exact ⟨trivial, h⟩
  | cons op t ih => exact ⟨⟨h.1, (ih h.2).1⟩, (ih h.2).2⟩

theorem run_trans {s s1 s2 : Sys} {a b : List Op} {r1 r2 : List Ret} (h1 : s.run K a = .ok (s1, r1)) (h2 : s1.run K b = .ok (s2, r2)) :
    s.run K (a ++ b) = .ok (s2, r1 ++ r2) := by
  induction a generalizing s r1 with
  | nil => cases h1; exact h2
  | cons op t ih =>
    obtain ⟨s', r, rs', e1, e2, rfl⟩ := Sys.run_cons h1
    show Sys.run K s (op :: (t ++ b)) = _
    unfold Sys.run
    rw [e1]
    simp only [ih e2]
    rfl

theorem run_new {light : Bool} {ops : List Op} {s : Sys} {rs : List Ret}
    (h : ({ Sys.new light with tries := [Trie.new K] } : Sys).run K ops = .ok (s, rs)) : (Sys.new light).run K (.new :: ops) = .ok (s, .done :: rs) := by
  have e : (Sys.new light).step K .new = .ok ({ Sys.new light with tries := [Trie.new K] }, .done) := rfl
  unfold Sys.run
  rw [e]
  simp only [h]

/-- **C59 (partial).** A program on one trie over a pruning database (as in C41, and without `get_proof`) ends with a `commit` that returns the
root `r`. Then every hash found from `r` is stored, and every stored hash is found from `r` or is itself a root returned before; or else, after
some of the calls on an archive database, two different stored byte strings have the same hash. Missing: that earlier roots are not stored, which
is false (`C59_old_root_false`), and programs with `get_proof`, for which more than roots is left (`C59_proof_false`). -/
theorem C59_only_old_roots_partial {ops : List Op} (hfit : ∀ op ∈ ops, Spec.Fits op) (hg : Spec.GentleFrom (Spec.run [.new]) (ops ++ [.commit 0]))
    (hnp : ∀ op ∈ ops, Spec.NoProof op) :
    (∃ s rs r, (Sys.new true).run K (.new :: (ops ++ [.commit 0])) = .ok (s, rs ++ [.root r]) ∧
      (∀ x, Spec.Reach s.db r x → s.db.get x ≠ none) ∧
      ∀ x, s.db.get x ≠ none → Spec.Reach s.db r x ∨ .root x ∈ rs) ∨
    ∃ pre s rs, pre <+: ops ++ [.commit 0] ∧ (Sys.new false).run K (.new :: pre) = .ok (s, rs) ∧ Spec.Collision K s.db.log := by
  obtain ⟨hg1, hg2⟩ := gentleFrom_append hg
  rcases (Twin.new (P := True)).total hfit hg1 (fun _ => hnp) (fun a ha => by cases ha) with ⟨sl, sa, rs, h1, h2, h3, -⟩ | ⟨pre, s, rs, h1, h2, h3⟩
  swap
  · exact .inr ⟨pre, s, .done :: rs, h1.trans (List.prefix_append _ _), run_new h2, not_noClash h3⟩
  by_cases hnc0 : NoClash K sa.db.log
  swap
  · exact .inr ⟨ops, sa, .done :: rs, List.prefix_append _ _, run_new h2, not_noClash hnc0⟩
  rcases h3.total (ops := [.commit 0]) (fun op hop => by rw [List.mem_singleton.1 hop]; trivial) hg2
    (fun _ op hop => by rw [List.mem_singleton.1 hop]; trivial) hnc0 with ⟨sl', sa', rs', k1, k2, k3, -⟩ | ⟨pre, s, rs', k1, k2, k3⟩
  swap
  · exact .inr ⟨ops ++ pre, s, .done :: (rs ++ rs'), List.prefix_append_right_inj ops |>.2 k1, run_new (run_trans h2 k2), not_noClash k3⟩
  by_cases hnc : NoClash K sa'.db.log
  swap
  · exact .inr ⟨_, sa', .done :: (rs ++ rs'), List.prefix_rfl, run_new (run_trans h2 k2), not_noClash hnc⟩
  obtain ⟨tr, m, g1, g2, g3⟩ := h3.one
  have ht : sl.tries[0]? = some tr := by rw [h3.tries, g1]; rfl
  have hcache := (h3.inv.tries.2 0 tr m (by rw [g1]; rfl) (by rw [g2]; rfl)).1
  obtain ⟨tr1, t, f1, f2, f3, f4, f5⟩ := Trie.commit_light h3.holed g3 hcache (hg2.1.2 m (congrArg (fun l : List Spec.Map => l[0]?) g2))
    False.elim (fun _ => False)
  obtain ⟨s1, r, rs1, e1, e2, rfl⟩ := Sys.run_cons k1
  cases e2
  have hlog : (sl.db.insertBatch tr1.cache).log = sl'.db.log := by
    simp only [Sys.step, ht, Sys.commit] at e1
    unfold Trie.commit at e1
    rw [f1] at e1
    simp only [Res.ok_bind] at e1
    generalize hx : (sl.db.insertBatch tr1.cache).removeBatch (tr1.passingKeys.filter (fun k => !(tr1.genKeys.contains k))) = d' at e1
    have hl : (sl.db.insertBatch tr1.cache).log = d'.log := by rw [← hx, removeBatch_log]
    rcases hr : recover d' (K (PT.enc K t)) with (e | e) | (_ | n) <;> (rw [hr] at e1; cases e1) <;> exact hl
  obtain ⟨tr', d', c1, c2, c3, c4, c5, c6, c7, -⟩ := f5 (by rw [hlog, k3.log]; exact hnc)
  simp only [Sys.step, ht, Sys.commit, c1] at e1
  cases e1
  refine .inl ⟨_, .done :: rs, K (PT.enc K t), by rw [List.cons_append]; exact run_new (run_trans h1 k1), fun x hx => ?_, fun x hx => ?_⟩
  · obtain ⟨u, rfl, hu, -⟩ := reach_held (K := K) (d := d') f2 ⟨c5, c6⟩ hx
    have : d'.get (K (PT.enc K u)) = some (PT.enc K u) := hu.1
    rw [this]
    exact Option.some_ne_none _
  · rcases (c7 trivial).2.2.2 x hx with hr | hp | ⟨u, hu, rfl⟩
    · rcases List.mem_append.1 hr with hr | hr
      · right
        rw [Sys.run_roots h1] at hr
        obtain ⟨r, hr1, hr2⟩ := List.mem_filterMap.1 (by simpa [Sys.new] using hr : x ∈ rs.filterMap Spec.rootOf)
        cases r <;> cases hr2
        exact List.mem_cons_of_mem _ hr1
      · rw [List.mem_singleton.1 hr]
        exact .inl .root
    · rw [c2] at hp
      cases hp
    · left
      rw [c2, stored_top] at hu
      exact below_reach f2 c6 (fun y hy => .child .root c5 (decodeNode_enc f2) hy) hu

/-! counterexamples -/

/-- The hashes inside the node stored under a hash. -/
def follow (db : Db) (x : H256) : List H256 :=
  match db.get x with
  | none => []
  | some b => ((decodeNode b).toOption.map Spec.refs).getD []

/-- All hashes found from some. -/
def closure (db : Db) : Nat → List H256 → List H256
  | 0, l => l
  | n + 1, l => closure db n (l ++ (l.flatMap (follow db)).filter (fun x => !l.contains x))

/-- A hash outside a set closed under following is not found. -/
theorem not_reach {db : Db} {r x : H256} (A : List H256) (hr : r ∈ A) (hA : ∀ y ∈ A, ∀ z ∈ follow db y, z ∈ A) (hx : x ∉ A) :
    ¬ Spec.Reach db r x := by
  intro h
  refine hx ?_
  induction h with
  | root => exact hr
  | child _ hb hn hy ih =>
    refine hA _ (ih (fun h => hx (hA _ h _ ?_))) _ ?_ <;> (unfold follow; rw [hb]; simp only [hn]; exact hy)

/-- The last root returned. -/
def lastRoot (ops : List Op) : H256 := (result true ops).1.roots.getLastD (exK [])

/-- Two commits. -/
def leakRoot : List Op :=
  [.new, .insert 0 [0x12, 0x34] (long 1), .insert 0 [0x22, 0x34] (long 2), .commit 0, .insert 0 [0x22, 0x34] (long 3), .commit 0]

/-- The root of the first commit. -/
def leakRootHash : H256 := (result true leakRoot).1.roots.headD (exK [])

/-- **C59 is false**: after two commits, the root node of the first one is still stored, though it is not found from the new root. -/
theorem C59_old_root_false : (Sys.new true).run exK leakRoot = .ok ((result true leakRoot).1, (result true leakRoot).2) ∧
    (result true leakRoot).1.roots.getLast? = some (lastRoot leakRoot) ∧
    (result true leakRoot).1.db.get leakRootHash ≠ none ∧ ¬ Spec.Reach (result true leakRoot).1.db (lastRoot leakRoot) leakRootHash ∧
    ¬ Spec.Collision exK (result true leakRoot).1.db.log :=
  ⟨result_eq (by decide +kernel), by decide +kernel, by decide +kernel,
    not_reach (closure (result true leakRoot).1.db 3 [lastRoot leakRoot]) (by decide +kernel) (by decide +kernel) (by decide +kernel), by decide +kernel⟩

/-- A proof before a value is changed and committed. -/
def leakProof : List Op :=
  [.new, .insert 0 [0x12, 0x34] (long 1), .insert 0 [0x22, 0x34] (long 2), .proof 0 [0x22, 0x34], .insert 0 [0x22, 0x34] (long 3), .commit 0]

/-- The same without the proof. -/
def leakNoProof : List Op :=
  [.new, .insert 0 [0x12, 0x34] (long 1), .insert 0 [0x22, 0x34] (long 2), .insert 0 [0x22, 0x34] (long 3), .commit 0]

/-- **C59 is false**: a call of `get_proof` makes the only commit store a leaf with a value that has been overwritten before. It is no root, and is
not found from the new root; without the call it is not stored. -/
theorem C59_proof_false : (Sys.new true).run exK leakProof = .ok ((result true leakProof).1, (result true leakProof).2) ∧
    (result true leakProof).1.roots.getLast? = some (lastRoot leakProof) ∧
    ∃ x, (result true leakProof).1.db.get x ≠ none ∧ (∀ r ∈ (result true leakProof).2, r ≠ .root x) ∧
      ¬ Spec.Reach (result true leakProof).1.db (lastRoot leakProof) x ∧ (result true leakNoProof).1.db.get x = none ∧
      ¬ Spec.Collision exK (result true leakProof).1.db.log := by
  refine ⟨result_eq (by decide +kernel), by decide +kernel, exK (PT.enc exK (.leaf [2, 3, 4] (long 2))), by decide +kernel, fun r hr he => ?_,
    not_reach (closure (result true leakProof).1.db 3 [lastRoot leakProof]) (by decide +kernel) (by decide +kernel) (by decide +kernel),
    by decide +kernel, by decide +kernel⟩
  subst he
  have : exK (PT.enc exK (.leaf [2, 3, 4] (long 2))) ∈ (result true leakProof).2.filterMap Spec.rootOf := List.mem_filterMap.2 ⟨_, hr, rfl⟩
  exact absurd this (by decide +kernel)

/-- Three keys, a commit, a removal that makes the trie collapse, and a change. -/
def leakOps : List Op :=
  [.insert 0 [0x12, 0x34] (long 1), .insert 0 [0x12, 0x44] (long 2), .insert 0 [0x22, 0x34] (long 3), .commit 0, .remove 0 [0x12, 0x44],
   .insert 0 [0x22, 0x34] (long 4)]

theorem leakOps_gentle : Spec.GentleFrom (Spec.run [.new]) (leakOps ++ [.commit 0]) := by
  refine ⟨rfl, rfl, rfl, ⟨rfl, ?_⟩, ⟨rfl, ?_⟩, rfl, ⟨rfl, ?_⟩, trivial⟩
  · intro m hm
    cases hm
    refine noTwins_of_distinct fun a b ha hab => ?_
    revert ha hab
    simp only [long_ne, if_false, Spec.Map.set]
    split_ifs <;> simp_all [long_inj]
  · intro m hm
    cases hm
    refine ⟨rfl, .inr (.inl ?_)⟩
    rintro k ⟨x, hx, rfl⟩
    simp [Spec.Map.set, long, hx]
  · intro m hm
    cases hm
    refine noTwins_of_distinct fun a b ha hab => ?_
    revert ha hab
    simp only [long_ne, if_false, Spec.Map.set]
    split_ifs <;> simp_all [long_inj]

/-- The old nodes are gone: of the nine nodes stored by two commits four are left. -/
example : (∃ s rs r, (Sys.new true).run exK (.new :: (leakOps ++ [.commit 0])) = .ok (s, rs ++ [.root r]) ∧
      ∀ x, s.db.get x ≠ none → Spec.Reach s.db r x ∨ .root x ∈ rs) ∧
    (result false (.new :: (leakOps ++ [.commit 0]))).1.db.len = 9 ∧ (result true (.new :: (leakOps ++ [.commit 0]))).1.db.len = 4 := by
  refine ⟨?_, by decide +kernel, by decide +kernel⟩
  rcases C59_only_old_roots_partial (K := exK) (ops := leakOps) (by
      intro op hop
      simp only [leakOps, List.mem_cons, List.not_mem_nil, or_false] at hop
      rcases hop with rfl | rfl | rfl | rfl | rfl | rfl <;> simp [Spec.Fits, long]) leakOps_gentle (by
      intro op hop
      simp only [leakOps, List.mem_cons, List.not_mem_nil, or_false] at hop
      rcases hop with rfl | rfl | rfl | rfl | rfl | rfl <;> trivial) with ⟨s, rs, r, h1, -, h2⟩ | ⟨pre, s, rs, h1, h2, a, ha, b, hb, hab, hk⟩
  · exact ⟨s, rs, r, h1, h2⟩
  · exfalso
    obtain ⟨rest, hrest⟩ := h1
    have e := result_eq (light := false) (ops := .new :: (leakOps ++ [.commit 0])) (by decide +kernel)
    have hlog : ∀ b ∈ s.db.log, b ∈ (result false (.new :: (leakOps ++ [.commit 0]))).1.db.log := by
      rw [← hrest, ← List.cons_append] at e ⊢
      obtain ⟨s1, rs1, rs2, e1, e2⟩ := run_append e
      rw [h2] at e1
      cases e1
      exact Sys.run_log e2
    exact (show ¬ Spec.Collision exK (result false (.new :: (leakOps ++ [.commit 0]))).1.db.log by decide +kernel) ⟨a, hlog a ha, b, hlog b hb, hab, hk⟩

end Verif.Props
