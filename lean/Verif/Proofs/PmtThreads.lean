import Verif.Spec.PmtThreads
import Verif.Proofs.PmtFailing
/-!
Threads over one archive database: calls as accesses are the calls of `Pmt/Trie`, and what other threads add does not change what a call does.
-/

set_option autoImplicit false

namespace Verif.Pmt

open PT

variable {K : Keccak} {α β : Type}

/-! ### Calls as accesses -/

namespace Call

theorem run_bind (c : Call α) (f : α → Call β) (db : Db) : (c.bind f).run db = (f (c.run db).2).run (c.run db).1 := by
  induction c generalizing db with
  | ret a => rfl
  | get h k ih => exact ih _ _
  | insert h b k ih => exact ih _
  | remove h k ih => exact ih _

theorem run_thenOk {c : Call (Res α)} {f : α → Call (Res β)} {db : Db} {x : Res α} {g : α → Res β} (hc : c.run db = (db, x))
    (hf : ∀ a, (f a).run db = (db, g a)) : (c.thenOk f).run db = (db, x >>= g) := by
  unfold thenOk
  rw [run_bind, hc]
  cases x with
  | error e => rfl
  | ok a => exact hf a

theorem run_thenOut {c : Call (Out α)} {f : α → Call (Out β)} {db : Db} {x : Out α} {g : α → Out β} (hc : c.run db = (db, x))
    (hf : ∀ a, (f a).run db = (db, g a)) : (c.thenOut f).run db = (db, x.andThen g) := by
  unfold thenOut
  rw [run_bind, hc]
  rcases x with ⟨l, e | a⟩
  · rfl
  · simp only [run_bind, hf a, run]
    rfl

theorem run_mapOut {c : Call (Out α)} {db : Db} {x : Out α} (hc : c.run db = (db, x)) (f : α → β) : (c.mapOut f).run db = (db, x.map f) := by
  unfold mapOut
  rw [run_bind, hc]
  rfl

theorem run_recover (h : H256) (db : Db) : (Call.recover h).run db = (db, Verif.Pmt.recover db h) := by
  unfold Call.recover Verif.Pmt.recover
  simp only [run]
  cases db.get h <;> rfl

theorem run_fetch (h : H256) (db : Db) : (Call.fetch h).run db = (db, Verif.Pmt.fetch db h) := by
  unfold Call.fetch Verif.Pmt.fetch
  rw [run_bind, run_recover]
  simp only [run]
  rcases Verif.Pmt.recover db h with e | _ | n <;> rfl

theorem run_hop (h : H256) (db : Db) : (Call.hop h).run db = (db, ([h], Verif.Pmt.fetch db h)) := by
  unfold Call.hop
  rw [run_bind, run_fetch]
  rfl

theorem run_getStep {hop : H256 → Nibbles → Call (Res (Option Bytes))} {hop' : H256 → Nibbles → Res (Option Bytes)} {db : Db}
    (hh : ∀ h p, (hop h p).run db = (db, hop' h p)) (n : Node) (p : Nibbles) : (getStep hop n p).run db = (db, Verif.Pmt.getStep hop' n p) := by
  induction n generalizing p with
  | empty => rfl
  | leaf k w => rfl
  | hash h => exact hh h p
  | ext pre sub ih =>
    simp only [getStep, Verif.Pmt.getStep]
    split
    · exact ih _
    · rfl
  | branch cs w ih =>
    cases p with
    | nil => rfl
    | cons x t =>
      simp only [getStep, Verif.Pmt.getStep]
      split
      · rfl
      · split
        · exact ih _ _
        · rfl

theorem run_getAt (db : Db) (fuel : Nat) (n : Node) (p : Nibbles) : (getAt fuel n p).run db = (db, Verif.Pmt.getAt db fuel n p) := by
  induction fuel generalizing n p with
  | zero => exact run_getStep (fun _ _ => rfl) n p
  | succ f ih =>
    refine run_getStep (fun h p => ?_) n p
    rw [run_thenOk (run_fetch h db) (fun n => ih n p)]
    cases Verif.Pmt.fetch db h <;> rfl

theorem run_insertStep {hop : H256 → Nibbles → Call (Out Node)} {hop' : H256 → Nibbles → Out Node} {db : Db}
    (hh : ∀ h p, (hop h p).run db = (db, hop' h p)) (v : Bytes) (n : Node) (p : Nibbles) :
    (insertStep hop v n p).run db = (db, Verif.Pmt.insertStep hop' v n p) := by
  induction n generalizing p with
  | empty => rfl
  | leaf k w => rfl
  | hash h => exact hh h p
  | ext pre sub ih =>
    simp only [insertStep, Verif.Pmt.insertStep]
    split
    · rfl
    · split
      · exact run_mapOut (ih _) _
      · rfl
  | branch cs w ih =>
    cases p with
    | nil => rfl
    | cons x t =>
      simp only [insertStep, Verif.Pmt.insertStep]
      split
      · rfl
      · split
        · exact run_mapOut (ih _ _) _
        · rfl

theorem run_insertAt (db : Db) (v : Bytes) (fuel : Nat) (n : Node) (p : Nibbles) :
    (insertAt v fuel n p).run db = (db, Verif.Pmt.insertAt db v fuel n p) := by
  induction fuel generalizing n p with
  | zero => exact run_insertStep (fun _ _ => rfl) v n p
  | succ f ih => exact run_insertStep (fun h p => run_thenOut (run_hop h db) (fun n => ih n p)) v n p

theorem run_degenerateExt {hop : H256 → Nibbles → Call (Out Node)} {hop' : H256 → Nibbles → Out Node} {db : Db}
    (hh : ∀ h p, (hop h p).run db = (db, hop' h p)) (n : Node) (p : Nibbles) :
    (degenerateExt hop p n).run db = (db, Verif.Pmt.degenerateExt hop' p n) := by
  induction n generalizing p with
  | hash h => exact hh h p
  | ext pre sub ih => exact ih _
  | _ => rfl

theorem run_degenerateExtAt (db : Db) (fuel : Nat) (p : Nibbles) (n : Node) :
    (degenerateExtAt fuel p n).run db = (db, Verif.Pmt.degenerateExtAt db fuel p n) := by
  induction fuel generalizing n p with
  | zero => exact run_degenerateExt (fun _ _ => rfl) n p
  | succ f ih => exact run_degenerateExt (fun h p => run_thenOut (run_hop h db) (fun n => ih p n)) n p

theorem run_degenerate (db : Db) (n : Node) : (degenerate (db.len + 1) n).run db = (db, Verif.Pmt.degenerate db n) := by
  cases n with
  | ext pre sub => exact run_degenerateExtAt _ _ _ _
  | branch cs v =>
    simp only [degenerate, Verif.Pmt.degenerate]
    rcases usedIndexes cs with _ | ⟨i, _ | ⟨j, l⟩⟩ <;> rcases v with _ | v
    · rfl
    · rfl
    · exact run_degenerateExtAt _ _ _ _
    all_goals rfl
  | _ => rfl

theorem run_afterDelete (db : Db) (x : Node × Bool) : (afterDelete (db.len + 1) x).run db = (db, Verif.Pmt.afterDelete db x) := by
  unfold afterDelete Verif.Pmt.afterDelete
  split
  · exact run_mapOut (run_degenerate _ _) _
  · rfl

theorem run_deleteStep {hop : H256 → Nibbles → Call (Out (Node × Bool))} {hop' : H256 → Nibbles → Out (Node × Bool)} {db : Db}
    (hh : ∀ h p, (hop h p).run db = (db, hop' h p)) (n : Node) (p : Nibbles) :
    (deleteStep (db.len + 1) hop n p).run db = (db, Verif.Pmt.deleteStep db hop' n p) := by
  induction n generalizing p with
  | empty => rfl
  | leaf k w =>
    simp only [deleteStep, Verif.Pmt.deleteStep]
    split <;> rfl
  | hash h => exact run_thenOut (hh h p) (run_afterDelete db)
  | ext pre sub ih =>
    simp only [deleteStep, Verif.Pmt.deleteStep]
    split
    · exact run_thenOut (ih _) (fun r => run_afterDelete db _)
    · rfl
  | branch cs w ih =>
    cases p with
    | nil => rfl
    | cons x t =>
      simp only [deleteStep, Verif.Pmt.deleteStep]
      split
      · rfl
      · split
        · exact run_thenOut (ih _ _) (fun r => run_afterDelete db _)
        · rfl

theorem run_deleteAt (db : Db) (fuel : Nat) (n : Node) (p : Nibbles) :
    (deleteAt (db.len + 1) fuel n p).run db = (db, Verif.Pmt.deleteAt db fuel n p) := by
  induction fuel generalizing n p with
  | zero => exact run_deleteStep (fun _ _ => rfl) n p
  | succ f ih => exact run_deleteStep (fun h p => run_thenOut (run_hop h db) (fun n => ih n p)) n p

theorem run_pathStep {hop : H256 → Nibbles → Call (Res (List Node))} {hop' : H256 → Nibbles → Res (List Node)} {db : Db}
    (hh : ∀ h p, (hop h p).run db = (db, hop' h p)) (n : Node) (p : Nibbles) : (pathStep hop n p).run db = (db, Verif.Pmt.pathStep hop' n p) := by
  induction n generalizing p with
  | empty => rfl
  | leaf k w => rfl
  | hash h => exact hh h p
  | ext pre sub ih =>
    simp only [pathStep, Verif.Pmt.pathStep]
    split
    · exact ih _
    · rfl
  | branch cs w ih =>
    cases p with
    | nil => rfl
    | cons x t =>
      simp only [pathStep, Verif.Pmt.pathStep]
      split
      · rfl
      · split
        · exact ih _ _
        · rfl

theorem run_pathAt (db : Db) (fuel : Nat) (n : Node) (p : Nibbles) : (pathAt fuel n p).run db = (db, Verif.Pmt.pathAt db fuel n p) := by
  induction fuel generalizing n p with
  | zero => exact run_pathStep (fun _ _ => rfl) n p
  | succ f ih => exact run_pathStep (fun h p => run_thenOk (run_fetch h db) (fun n => run_thenOk (ih n p) (fun _ => rfl))) n p

theorem run_insertAll (l : List (H256 × Bytes)) (c : Call α) (db : Db) : (insertAll l c).run db = c.run (db.insertBatch l) := by
  induction l generalizing db with
  | nil => rfl
  | cons e t ih => exact ih _

theorem run_removeAll (l : List H256) (c : Call α) (db : Db) : (removeAll l c).run db = c.run (db.removeBatch l) := by
  induction l generalizing db with
  | nil => rfl
  | cons e t ih => exact ih _

end Call

/-- What belongs to the one thread of a system. -/
def Sys.own (s : Sys) : Own := ⟨s.tries, s.roots⟩

/-- A call made without accesses of others in between is the call of `Pmt/System`. -/
theorem Sys.ask_run {s s' : Sys} {a : Ask} {r : Ans} (h : s.ask K a = .ok (s', r)) :
    (s.own.ask K s.db.len a).run s.db = (s'.db, .ok (s'.own, r)) := by
  cases a with
  | get i k =>
    simp only [Sys.ask] at h
    simp only [Own.ask, Sys.own]
    rcases ht : s.tries[i]? with _ | t <;> rw [ht] at h <;> dsimp only at h ⊢
    · cases h; rfl
    · unfold Own.get
      rw [Call.run_bind, Call.run_getAt]
      unfold Trie.get hops at h
      simp only [Call.run]
      generalize Verif.Pmt.getAt s.db (((Trie.path k).length + 1) * (s.db.len + 1)) t.root (Trie.path k) = q at h ⊢
      rcases q with (_ | _) | v <;> cases h <;> rfl
  | contains i k =>
    simp only [Sys.ask] at h
    simp only [Own.ask, Sys.own]
    rcases ht : s.tries[i]? with _ | t <;> rw [ht] at h <;> dsimp only at h ⊢
    · cases h; rfl
    · unfold Own.contains
      rw [Call.run_bind, Call.run_getAt]
      unfold Trie.contains hops at h
      simp only [Call.run]
      generalize Verif.Pmt.getAt s.db (((Trie.path k).length + 1) * (s.db.len + 1)) t.root (Trie.path k) = q at h ⊢
      rcases q with (_ | _) | v <;> cases h <;> rfl
  | op o =>
    simp only [Sys.ask] at h
    rcases hs : s.step K o with e | ⟨s1, r1⟩ <;> rw [hs] at h
    · cases h
    cases h
    cases o with
    | new => cases hs; rfl
    | openAt j =>
      simp only [Sys.step] at hs
      simp only [Own.ask, Sys.own]
      rcases hj : s.roots[j]? with _ | x <;> rw [hj] at hs <;> cases hs <;> rfl
    | insert i k v =>
      simp only [Sys.step] at hs
      simp only [Own.ask, Sys.own]
      rcases ht : s.tries[i]? with _ | t <;> rw [ht] at hs <;> dsimp only at hs ⊢
      · cases hs; rfl
      · unfold Own.insert
        unfold Sys.insert Trie.insert hops at hs
        by_cases hv : v.isEmpty
        · rw [if_pos hv] at hs ⊢
          cases hs; rfl
        · rw [if_neg hv] at hs ⊢
          rw [Call.run_bind, Call.run_insertAt]
          simp only [Call.run]
          dsimp only at hs
          generalize Verif.Pmt.insertAt s.db v (((Trie.path k).length + 1) * (s.db.len + 1)) t.root (Trie.path k) = q at hs ⊢
          rcases q with ⟨ks, (_ | _) | n⟩ <;> cases hs <;> rfl
    | remove i k =>
      simp only [Sys.step] at hs
      simp only [Own.ask, Sys.own]
      rcases ht : s.tries[i]? with _ | t <;> rw [ht] at hs <;> dsimp only at hs ⊢
      · cases hs; rfl
      · unfold Own.remove
        unfold Sys.remove Trie.remove hops at hs
        rw [Call.run_bind, Call.run_deleteAt]
        simp only [Call.run]
        dsimp only at hs
        generalize Verif.Pmt.deleteAt s.db (((Trie.path k).length + 1) * (s.db.len + 1)) t.root (Trie.path k) = q at hs ⊢
        rcases q with ⟨ks, (_ | _) | ⟨n, b⟩⟩ <;> cases hs <;> rfl
    | commit i =>
      simp only [Sys.step] at hs
      simp only [Own.ask, Sys.own]
      rcases ht : s.tries[i]? with _ | t <;> rw [ht] at hs <;> dsimp only at hs ⊢
      · cases hs; rfl
      · unfold Own.commit
        unfold Sys.commit Trie.commit at hs
        rcases hw : t.writeRoot K with e | ⟨t1, x⟩ <;> rw [hw] at hs
        · cases hs
        · simp only [Res.ok_bind] at hs
          dsimp only
          rw [Call.run_insertAll, Call.run_removeAll, Call.run_bind, Call.run_recover]
          simp only [Call.run]
          generalize (s.db.insertBatch t1.cache).removeBatch (t1.passingKeys.filter (fun k => !(t1.genKeys.contains k))) = d at hs ⊢
          generalize Verif.Pmt.recover d x = q at hs ⊢
          rcases q with (_ | _) | _ | n <;> cases hs <;> rfl
    | proof i k =>
      simp only [Sys.step] at hs
      simp only [Own.ask, Sys.own]
      rcases ht : s.tries[i]? with _ | t <;> rw [ht] at hs <;> dsimp only at hs ⊢
      · cases hs; rfl
      · unfold Own.proof
        unfold Sys.proof Trie.getProof hops at hs
        rw [Call.run_bind, Call.run_pathAt]
        simp only [Call.run]
        generalize Verif.Pmt.pathAt s.db (((Trie.path k).length + 1) * (s.db.len + 1)) t.root (Trie.path k) = q at hs ⊢
        rcases q with (_ | _) | l
        · cases hs; rfl
        · cases hs
        · dsimp only at hs ⊢
          generalize Trie.encodeAll K _ = q at hs ⊢
          rcases q with q | ⟨bs, w⟩
          · cases hs
          · cases hs; rfl

/-! ### Calls that notice when a node is missing -/

/-- When a node is missing, the call ends at once, with a result of which `Q` holds; and what it inserts are encodings of nodes. -/
def Call.Strict (K : Keccak) (Q : α → Prop) : Call α → Prop
  | .ret _ => True
  | .get _ k => (∃ a, k none = .ret a ∧ Q a) ∧ ∀ x, (k x).Strict K Q
  | .insert h b k => EntryOk K (h, b) ∧ k.Strict K Q
  | .remove _ k => k.Strict K Q

namespace Call

theorem Strict.bind {Q : α → Prop} {Q' : β → Prop} {c : Call α} (hc : c.Strict K Q) {f : α → Call β} (hf : ∀ a, (f a).Strict K Q')
    (hQ : ∀ a, Q a → ∃ b, f a = .ret b ∧ Q' b) : (c.bind f).Strict K Q' := by
  induction c with
  | ret a => exact hf a
  | get h k ih =>
    refine ⟨?_, fun x => ih x (hc.2 x)⟩
    obtain ⟨a, e, ha⟩ := hc.1
    obtain ⟨b, e', hb⟩ := hQ a ha
    refine ⟨b, ?_, hb⟩
    show (k none).bind f = _
    rw [e]
    exact e'
  | insert h b k ih => exact ⟨hc.1, ih hc.2⟩
  | remove h k ih => exact ih hc

/-- A node is missing. -/
def Lost (r : Res α) : Prop := r = missing

/-- A node is missing. -/
def LostOut (r : Out α) : Prop := r.2 = missing

theorem Strict.thenOk {c : Call (Res α)} (hc : c.Strict K Lost) {f : α → Call (Res β)} (hf : ∀ a, (f a).Strict K Lost) : (c.thenOk f).Strict K Lost := by
  refine hc.bind (fun a => ?_) (fun a ha => ?_)
  · cases a with
    | error e => trivial
    | ok a => exact hf a
  · cases ha
    exact ⟨_, rfl, rfl⟩

theorem Strict.thenOut {c : Call (Out α)} (hc : c.Strict K LostOut) {f : α → Call (Out β)} (hf : ∀ a, (f a).Strict K LostOut) :
    (c.thenOut f).Strict K LostOut := by
  refine hc.bind (fun a => ?_) (fun a ha => ?_)
  · rcases a with ⟨l, e | a⟩
    · trivial
    · exact (hf a).bind (fun _ => trivial) (fun y hy => ⟨_, rfl, hy⟩)
  · rcases a with ⟨l, e | a⟩
    · cases ha; exact ⟨_, rfl, rfl⟩
    · cases ha

theorem Strict.mapOut {c : Call (Out α)} (hc : c.Strict K LostOut) (f : α → β) : (c.mapOut f).Strict K LostOut := by
  refine hc.bind (fun a => trivial) (fun a ha => ⟨_, rfl, ?_⟩)
  rcases a with ⟨l, e | a⟩
  · cases ha; rfl
  · cases ha

theorem strict_fetch (h : H256) : (fetch h).Strict K Lost := ⟨⟨missing, rfl, rfl⟩, fun _ => trivial⟩

theorem strict_hop (h : H256) : (hop h).Strict K LostOut := (strict_fetch h).bind (fun _ => trivial) (fun _ ha => ⟨_, rfl, ha⟩)

theorem strict_getStep {hop : H256 → Nibbles → Call (Res (Option Bytes))} (hh : ∀ h p, (hop h p).Strict K Lost) (n : Node) (p : Nibbles) :
    (getStep hop n p).Strict K Lost := by
  induction n generalizing p with
  | empty => trivial
  | leaf k w => trivial
  | hash h => exact hh h p
  | ext pre sub ih =>
    simp only [getStep]
    split
    · exact ih _
    · trivial
  | branch cs w ih =>
    cases p with
    | nil => trivial
    | cons x t =>
      simp only [getStep]
      split
      · trivial
      · split
        · exact ih _ _
        · trivial

theorem strict_getAt (fuel : Nat) (n : Node) (p : Nibbles) : (getAt fuel n p).Strict K Lost := by
  induction fuel generalizing n p with
  | zero => exact strict_getStep (fun _ _ => by exact trivial) n p
  | succ f ih => exact strict_getStep (fun h p => (strict_fetch h).thenOk (fun n => ih n p)) n p

theorem strict_insertStep {hop : H256 → Nibbles → Call (Out Node)} (hh : ∀ h p, (hop h p).Strict K LostOut) (v : Bytes) (n : Node) (p : Nibbles) :
    (insertStep hop v n p).Strict K LostOut := by
  induction n generalizing p with
  | empty => trivial
  | leaf k w => trivial
  | hash h => exact hh h p
  | ext pre sub ih =>
    simp only [insertStep]
    split
    · trivial
    · split
      · exact (ih _).mapOut _
      · trivial
  | branch cs w ih =>
    cases p with
    | nil => trivial
    | cons x t =>
      simp only [insertStep]
      split
      · trivial
      · split
        · exact (ih _ _).mapOut _
        · trivial

theorem strict_insertAt (v : Bytes) (fuel : Nat) (n : Node) (p : Nibbles) : (insertAt v fuel n p).Strict K LostOut := by
  induction fuel generalizing n p with
  | zero => exact strict_insertStep (fun _ _ => by exact trivial) v n p
  | succ f ih => exact strict_insertStep (fun h p => (strict_hop h).thenOut (fun n => ih n p)) v n p

theorem strict_degenerateExt {hop : H256 → Nibbles → Call (Out Node)} (hh : ∀ h p, (hop h p).Strict K LostOut) (n : Node) (p : Nibbles) :
    (degenerateExt hop p n).Strict K LostOut := by
  induction n generalizing p with
  | hash h => exact hh h p
  | ext pre sub ih => exact ih _
  | _ => trivial

theorem strict_degenerateExtAt (fuel : Nat) (p : Nibbles) (n : Node) : (degenerateExtAt fuel p n).Strict K LostOut := by
  induction fuel generalizing n p with
  | zero => exact strict_degenerateExt (fun _ _ => by exact trivial) n p
  | succ f ih => exact strict_degenerateExt (fun h p => (strict_hop h).thenOut (fun n => ih p n)) n p

theorem strict_degenerate (fuel : Nat) (n : Node) : (degenerate fuel n).Strict K LostOut := by
  cases n with
  | ext pre sub => exact strict_degenerateExtAt _ _ _
  | branch cs v =>
    simp only [degenerate]
    split
    · trivial
    · exact strict_degenerateExtAt _ _ _
    · trivial
  | _ => trivial

theorem strict_afterDelete (fuel : Nat) (x : Node × Bool) : (afterDelete fuel x).Strict K LostOut := by
  unfold afterDelete
  split
  · exact (strict_degenerate _ _).mapOut _
  · trivial

theorem strict_deleteStep {d : Nat} {hop : H256 → Nibbles → Call (Out (Node × Bool))} (hh : ∀ h p, (hop h p).Strict K LostOut) (n : Node) (p : Nibbles) :
    (deleteStep d hop n p).Strict K LostOut := by
  induction n generalizing p with
  | empty => trivial
  | leaf k w =>
    simp only [deleteStep]
    split <;> trivial
  | hash h => exact (hh h p).thenOut (strict_afterDelete _)
  | ext pre sub ih =>
    simp only [deleteStep]
    split
    · exact (ih _).thenOut (fun r => strict_afterDelete _ _)
    · trivial
  | branch cs w ih =>
    cases p with
    | nil => trivial
    | cons x t =>
      simp only [deleteStep]
      split
      · trivial
      · split
        · exact (ih _ _).thenOut (fun r => strict_afterDelete _ _)
        · trivial

theorem strict_deleteAt (d fuel : Nat) (n : Node) (p : Nibbles) : (deleteAt d fuel n p).Strict K LostOut := by
  induction fuel generalizing n p with
  | zero => exact strict_deleteStep (fun _ _ => by exact trivial) n p
  | succ f ih => exact strict_deleteStep (fun h p => (strict_hop h).thenOut (fun n => ih n p)) n p

theorem strict_pathStep {hop : H256 → Nibbles → Call (Res (List Node))} (hh : ∀ h p, (hop h p).Strict K Lost) (n : Node) (p : Nibbles) :
    (pathStep hop n p).Strict K Lost := by
  induction n generalizing p with
  | empty => trivial
  | leaf k w => trivial
  | hash h => exact hh h p
  | ext pre sub ih =>
    simp only [pathStep]
    split
    · exact ih _
    · trivial
  | branch cs w ih =>
    cases p with
    | nil => trivial
    | cons x t =>
      simp only [pathStep]
      split
      · trivial
      · split
        · exact ih _ _
        · trivial

theorem strict_pathAt (fuel : Nat) (n : Node) (p : Nibbles) : (pathAt fuel n p).Strict K Lost := by
  induction fuel generalizing n p with
  | zero => exact strict_pathStep (fun _ _ => by exact trivial) n p
  | succ f ih => exact strict_pathStep (fun h p => (strict_fetch h).thenOk (fun n => (ih n p).thenOk (fun _ => by exact trivial))) n p

theorem strict_insertAll {Q : α → Prop} {c : Call α} (hc : c.Strict K Q) {l : List (H256 × Bytes)} (hl : ∀ e ∈ l, EntryOk K e) :
    (insertAll l c).Strict K Q := by
  induction l with
  | nil => exact hc
  | cons e t ih => exact ⟨hl e List.mem_cons_self, ih fun x hx => hl x (List.mem_cons_of_mem _ hx)⟩

theorem strict_removeAll {Q : α → Prop} {c : Call α} (hc : c.Strict K Q) (l : List H256) : (removeAll l c).Strict K Q := by
  induction l with
  | nil => exact hc
  | cons e t ih => exact ih

end Call

/-- The call failed because of a missing node. -/
def NodeLost (x : Res (Own × Ans)) : Prop :=
  x = .error (.panic "The root that was just created is missing") ∨ ∃ o, x = .ok (o, .ret (.failed "MissingTrieNode"))

theorem Own.strict_ask {o : Own} (ho : ∀ t ∈ o.tries, ∃ m db, HandleInv K False db t m) (len : Nat) (a : Ask) : (o.ask K len a).Strict K NodeLost := by
  cases a with
  | get i k =>
    simp only [Own.ask]
    cases o.tries[i]? with
    | none => trivial
    | some t => exact (Call.strict_getAt _ _ _).bind (fun _ => trivial) (fun x hx => by cases hx; exact ⟨_, rfl, .inr ⟨_, rfl⟩⟩)
  | contains i k =>
    simp only [Own.ask]
    cases o.tries[i]? with
    | none => trivial
    | some t => exact (Call.strict_getAt _ _ _).bind (fun _ => trivial) (fun x hx => by cases hx; exact ⟨_, rfl, .inr ⟨_, rfl⟩⟩)
  | op o' =>
    cases o' with
    | new => trivial
    | openAt j =>
      simp only [Own.ask]
      cases o.roots[j]? <;> trivial
    | insert i k v =>
      simp only [Own.ask]
      cases o.tries[i]? with
      | none => trivial
      | some t =>
        simp only [Own.insert]
        split
        · trivial
        · refine (Call.strict_insertAt _ _ _ _).bind (fun _ => trivial) (fun x hx => ?_)
          rcases x with ⟨l, e | a⟩
          · cases hx; exact ⟨_, rfl, .inr ⟨_, rfl⟩⟩
          · cases hx
    | remove i k =>
      simp only [Own.ask]
      cases o.tries[i]? with
      | none => trivial
      | some t =>
        refine (Call.strict_deleteAt _ _ _ _).bind (fun _ => trivial) (fun x hx => ?_)
        rcases x with ⟨l, e | a⟩
        · cases hx; exact ⟨_, rfl, .inr ⟨_, rfl⟩⟩
        · cases hx
    | commit i =>
      simp only [Own.ask]
      rcases ht : o.tries[i]? with _ | t
      · trivial
      · simp only [Own.commit]
        obtain ⟨m, db, hm⟩ := ho t (List.mem_of_getElem? ht)
        obtain ⟨t1, _, e, hc, -⟩ := Trie.writeRoot_ok hm
        rw [e]
        refine Call.strict_insertAll (Call.strict_removeAll ?_ _) hc
        exact ⟨⟨_, rfl, .inl rfl⟩, fun _ => trivial⟩
    | proof i k =>
      simp only [Own.ask]
      cases o.tries[i]? with
      | none => trivial
      | some t => exact (Call.strict_pathAt _ _ _).bind (fun _ => trivial) (fun x hx => by cases hx; exact ⟨_, rfl, .inr ⟨_, rfl⟩⟩)

/-! ### The same calls on a database with more entries -/

/-- A system, and one with the same tries whose database lacks some of the entries. -/
structure Twins (K : Keccak) (s s0 : Sys) (σ : Spec.State) : Prop where
  inv : SysInv K False s σ
  inv0 : SysInv K False s0 σ
  tries : s.tries = s0.tries
  roots : s.roots = s0.roots
  log : ∀ b ∈ s0.db.log, b ∈ s.db.log

theorem Twins.refl {s : Sys} {σ : Spec.State} (h : SysInv K False s σ) : Twins K s s σ := ⟨h, h, rfl, rfl, fun _ hb => hb⟩

theorem SysInv.grow {s : Sys} {σ : Spec.State} (h : SysInv K False s σ) {db : Db} (hd : DbInv K db) (hl : ∀ b ∈ s.db.log, b ∈ db.log) :
    SysInv K False ⟨db, s.tries, s.roots⟩ σ := ⟨hd, h.tries.mono (fun _ _ h => h.mono hl), h.roots.mono (fun _ _ h => h.mono hl)⟩

theorem Twins.grow {s s0 : Sys} {σ : Spec.State} (h : Twins K s s0 σ) {db : Db} (hd : DbInv K db) (hl : ∀ b ∈ s.db.log, b ∈ db.log) :
    Twins K ⟨db, s.tries, s.roots⟩ s0 σ := ⟨h.inv.grow hd hl, h.inv0, h.tries, h.roots, fun b hb => hl b (h.log b hb)⟩

theorem DbInv.alike {d d' : Db} (h : DbInv K d) (h' : DbInv K d') (hl : ∀ b ∈ d'.log, b ∈ d.log) (hnc : NoClash K d.log) : Alike d d' := by
  intro x b b' hb hb'
  have h1 := h.sound _ _ hb
  have h2 := h'.sound _ _ hb'
  exact hnc b h1.2 b' (hl _ h2.2) (h1.1.symm.trans h2.1)

theorem Twins.step {s s0 s0' : Sys} {σ : Spec.State} (h : Twins K s s0 σ) {op : Op} {r : Ret} (hop : Spec.Fits op) (hs : s0.step K op = .ok (s0', r))
    (hnc : NoClash K s.db.log) :
    ∃ s', s.step K op = .ok (s', r) ∧ (NoClash K s'.db.log → Twins K s' s0' (Spec.step σ op)) := by
  have hnc0 : NoClash K s0.db.log := hnc.subset h.log
  have hw : Alike s.db s0.db := h.inv.db.alike h.inv0.db h.log hnc
  have hR := h.inv.db.reads hnc
  have hR0 := h.inv0.db.reads hnc0
  have hi0 : NoClash K s0'.db.log → SysInv K False s0' (Spec.step σ op) := by
    rcases h.inv0.step (op := op) hop False.elim hnc0 with ⟨s', r', e, _, g⟩ | ⟨_, _, _, _, _, _, _, e⟩
    · rw [hs] at e
      cases e
      exact g
    · rw [hs] at e; cases e
  have hi : ∀ {s' : Sys} {r' : Ret}, s.step K op = .ok (s', r') → NoClash K s'.db.log → SysInv K False s' (Spec.step σ op) := by
    intro s' r' hs'
    rcases h.inv.step (op := op) hop False.elim hnc with ⟨s', r', e, _, g⟩ | ⟨_, _, _, _, _, _, _, e⟩
    · rw [hs'] at e
      cases e
      exact g
    · rw [hs'] at e; cases e
  have done : ∀ {s' : Sys}, s.step K op = .ok (s', r) → (∀ b ∈ s0'.db.log, b ∈ s'.db.log) → s'.roots = s0'.roots →
      (NoClash K s'.db.log → s'.tries = s0'.tries) →
      ∃ s', s.step K op = .ok (s', r) ∧ (NoClash K s'.db.log → Twins K s' s0' (Spec.step σ op)) :=
    fun e hl hr g => ⟨_, e, fun hn => ⟨hi e hn, hi0 (hn.subset hl), g hn, hr, hl⟩⟩
  have htr := h.tries
  have hro := h.roots
  cases op with
  | new =>
    cases hs
    exact done rfl h.log hro (fun _ => congrArg (· ++ [Trie.new K]) htr)
  | openAt j =>
    rcases hj : s0.roots[j]? with _ | x
    · simp only [Sys.step, hj] at hs
      cases hs
      exact done (s' := s) (by simp only [Sys.step, hro, hj]) h.log hro (fun _ => htr)
    · simp only [Sys.step, hj] at hs
      cases hs
      exact done (s' := { s with tries := s.tries ++ [Trie.atRoot x] }) (by simp only [Sys.step, hro, hj]) h.log hro
        (fun _ => congrArg (· ++ [Trie.atRoot x]) htr)
  | insert i k v =>
    rcases ht0 : s0.tries[i]? with _ | tr
    · simp only [Sys.step, ht0] at hs
      cases hs
      exact done (s' := s) (by simp only [Sys.step, htr, ht0]) h.log hro (fun _ => htr)
    · have ht : s.tries[i]? = some tr := by rw [htr]; exact ht0
      obtain ⟨m, hm, g⟩ := h.inv.tries.some ht
      have g0 := h.inv0.tries.2 i _ _ ht0 hm
      simp only [Sys.step, ht0, Sys.insert] at hs
      have key : tr.insert s.db k v = tr.insert s0.db k v := by
        by_cases hv : v = []
        · subst hv; rfl
        · obtain ⟨tr', e, -⟩ := Trie.insert_ok hR g hop.1 hop.2 hv
          obtain ⟨tr0', e0, -⟩ := Trie.insert_ok hR0 g0 hop.1 hop.2 hv
          unfold Trie.insert at e e0 ⊢
          rw [if_neg (by simpa using hv)] at e e0
          rw [if_neg (by simpa using hv), if_neg (by simpa using hv)]
          dsimp only at e e0 ⊢
          rcases hr1 : insertAt s.db v (hops s.db (Trie.path k)) tr.root (Trie.path k) with ⟨ks, e3 | n⟩
          · rw [hr1] at e
            rcases e3 with e3 | e3 <;> cases e
          rcases hr2 : insertAt s0.db v (hops s0.db (Trie.path k)) tr.root (Trie.path k) with ⟨ks', e3 | n'⟩
          · rw [hr2] at e0
            rcases e3 with e3 | e3 <;> cases e0
          have := insertAt_same hw v (hops s.db (Trie.path k)) (hops s0.db (Trie.path k)) tr.root (Trie.path k) n n' (by rw [hr1]) (by rw [hr2])
          rw [hr1, hr2] at this
          cases this
          rfl
      rcases hq : tr.insert s0.db k v with e | ⟨t1, _ | x⟩ <;> rw [hq] at hs <;> cases hs
      · exact done (s' := s.put i t1) (by simp only [Sys.step, ht, Sys.insert, key, hq]) h.log hro (fun _ => congrArg (·.set i t1) htr)
      · exact done (s' := s.put i t1) (by simp only [Sys.step, ht, Sys.insert, key, hq]) h.log hro (fun _ => congrArg (·.set i t1) htr)
  | remove i k =>
    rcases ht0 : s0.tries[i]? with _ | tr
    · simp only [Sys.step, ht0] at hs
      cases hs
      exact done (s' := s) (by simp only [Sys.step, htr, ht0]) h.log hro (fun _ => htr)
    · have ht : s.tries[i]? = some tr := by rw [htr]; exact ht0
      obtain ⟨m, hm, g⟩ := h.inv.tries.some ht
      have g0 := h.inv0.tries.2 i _ _ ht0 hm
      simp only [Sys.step, ht0, Sys.remove] at hs
      have key : tr.remove s.db k = tr.remove s0.db k := by
        obtain ⟨tr', b, e, -⟩ := Trie.remove_ok hR g k False.elim
        obtain ⟨tr0', b0, e0, -⟩ := Trie.remove_ok hR0 g0 k False.elim
        unfold Trie.remove at e e0 ⊢
        dsimp only at e e0 ⊢
        rcases hr1 : deleteAt s.db (hops s.db (Trie.path k)) tr.root (Trie.path k) with ⟨ks, e3 | n⟩
        · rw [hr1] at e
          rcases e3 with e3 | e3 <;> cases e
        rcases hr2 : deleteAt s0.db (hops s0.db (Trie.path k)) tr.root (Trie.path k) with ⟨ks', e3 | n'⟩
        · rw [hr2] at e0
          rcases e3 with e3 | e3 <;> cases e0
        have := deleteAt_same hw (hops s.db (Trie.path k)) (hops s0.db (Trie.path k)) tr.root (Trie.path k) n n' (by rw [hr1]) (by rw [hr2])
        rw [hr1, hr2] at this
        cases this
        rfl
      rcases hq : tr.remove s0.db k with e | ⟨t1, _ | x⟩ <;> rw [hq] at hs <;> cases hs
      · exact done (s' := s.put i t1) (by simp only [Sys.step, ht, Sys.remove, key, hq]) h.log hro (fun _ => congrArg (·.set i t1) htr)
      · exact done (s' := s.put i t1) (by simp only [Sys.step, ht, Sys.remove, key, hq]) h.log hro (fun _ => congrArg (·.set i t1) htr)
  | commit i =>
    rcases ht0 : s0.tries[i]? with _ | tr
    · simp only [Sys.step, ht0] at hs
      cases hs
      exact done (s' := s) (by simp only [Sys.step, htr, ht0]) h.log hro (fun _ => htr)
    · have ht : s.tries[i]? = some tr := by rw [htr]; exact ht0
      obtain ⟨m, hm, g⟩ := h.inv.tries.some ht
      have g0 := h.inv0.tries.2 i _ _ ht0 hm
      simp only [Sys.step, ht0, Sys.commit] at hs
      obtain ⟨tr', db', t, e, g1, -, -, g2, g3, -, -, g4⟩ := Trie.commit_ok h.inv.db g
      obtain ⟨tr0', db0', t0, e0, f1, -, -, f2, f3, -, -, f4⟩ := Trie.commit_ok h.inv0.db g0
      rw [e0] at hs
      cases hs
      have key : K (enc K t) = K (enc K t0) ∧ (∀ b ∈ db0'.log, b ∈ db'.log) ∧ (tr'.root = tr0'.root → tr' = tr0') := by
        unfold Trie.commit at e e0
        rcases w : tr.writeRoot K with x | ⟨tr1, x⟩
        · rw [w] at e; cases e
        rw [w] at e e0
        simp only [Res.ok_bind] at e e0
        have hl : ∀ l : List H256, ∀ b ∈ ((s0.db.insertBatch tr1.cache).removeBatch l).log, b ∈ ((s.db.insertBatch tr1.cache).removeBatch l).log := by
          intro l b hb
          rw [removeBatch_log] at hb ⊢
          rcases (insertBatch_log _ _).1 hb with hb | hb
          · exact (insertBatch_log _ _).2 (.inl (h.log b hb))
          · exact (insertBatch_log _ _).2 (.inr hb)
        split at e
        · cases e
        · cases e
        · cases e
        · split at e0
          · cases e0
          · cases e0
          · cases e0
          · injection e with e
            injection e0 with e0
            injection e with a1 a2
            injection a2 with a2 a3
            injection a3 with a3
            injection e0 with b1 b2
            injection b2 with b2 b3
            injection b3 with b3
            refine ⟨a3.symm.trans b3, ?_, ?_⟩
            · rw [← a2, ← b2]; exact hl _
            · rw [← a1, ← b1]
              intro hx
              dsimp only at hx
              rw [hx]
      obtain ⟨hh, hl, hq⟩ := key
      refine done (s' := ⟨db', s.tries.set i tr', s.roots ++ [K (enc K t)]⟩) ?_ hl ?_ (fun hn => ?_)
      · simp only [Sys.step, ht, Sys.commit, e]
        rw [hh]
      · show s.roots ++ _ = s0.roots ++ _
        rw [hro, hh]
      · have he : enc K t = enc K t0 := hn _ g2.1 _ (hl _ f2.1) hh
        show s.tries.set i tr' = s0.tries.set i tr0'
        rw [htr, hq]
        rw [g4 hn, f4 (hn.subset hl), top_of_enc g3 f3 he]
  | proof i k =>
    rcases ht0 : s0.tries[i]? with _ | tr
    · simp only [Sys.step, ht0] at hs
      cases hs
      exact done (s' := s) (by simp only [Sys.step, htr, ht0]) h.log hro (fun _ => htr)
    · have ht : s.tries[i]? = some tr := by rw [htr]; exact ht0
      obtain ⟨m, hm, g⟩ := h.inv.tries.some ht
      have g0 := h.inv0.tries.2 i _ _ ht0 hm
      simp only [Sys.step, ht0, Sys.proof] at hs
      have key : tr.getProof K s.db k = tr.getProof K s0.db k := by
        obtain ⟨_, t, a1, a2, _⟩ := g
        obtain ⟨l, e1, _⟩ := pathAt_root hR a2 a1 (hops_ge (nibsOf k))
        obtain ⟨_, t', b1, b2, _⟩ := g0
        obtain ⟨l', e2, _⟩ := pathAt_root hR0 b2 b1 (hops_ge (nibsOf k))
        have := pathAt_same hw _ _ _ _ _ _ e1 e2
        unfold Trie.getProof
        rw [path_eq, e1, e2, this]
      rcases hq : tr.getProof K s0.db k with e | ⟨t1, _ | x⟩ <;> rw [hq] at hs <;> cases hs
      · exact done (s' := s.put i t1) (by simp only [Sys.step, ht, Sys.proof, key, hq]) h.log hro (fun _ => congrArg (·.set i t1) htr)
      · exact done (s' := s.put i t1) (by simp only [Sys.step, ht, Sys.proof, key, hq]) h.log hro (fun _ => congrArg (·.set i t1) htr)

/-- No call returns that a node is missing. -/
theorem SysInv.not_missing {s s' : Sys} {σ : Spec.State} (h : SysInv K False s σ) {op : Op} {r : Ret} (hop : Spec.Fits op) (hnc : NoClash K s.db.log)
    (hs : s.step K op = .ok (s', r)) : r ≠ .failed "MissingTrieNode" := by
  by_cases hv : ∃ i k, op = .insert i k []
  · obtain ⟨i, k, rfl⟩ := hv
    simp only [Sys.step, Sys.insert] at hs
    rcases ht : s.tries[i]? with _ | tr <;> rw [ht] at hs
    · cases hs; rintro ⟨⟩
    · have e : tr.insert s.db k [] = .ok (tr, some "value provided for key is empty") := rfl
      simp only [e] at hs
      cases hs
      intro hx
      injection hx with hx
      exact absurd hx (by decide)
  · rcases h.step (op := op) hop False.elim hnc with ⟨s1, r1, e, ha, -⟩ | ⟨_, _, _, _, _, _, _, e⟩
    · rw [hs] at e
      cases e
      cases op with
      | new => cases ha; rintro ⟨⟩
      | openAt j => simp only [Spec.Answers] at ha; subst ha; split <;> rintro ⟨⟩
      | insert i k v =>
        simp only [Spec.Answers] at ha
        split at ha
        · split at ha
          · rename_i e; subst e; exact (hv ⟨i, k, rfl⟩).elim
          · subst ha; rintro ⟨⟩
        · subst ha; rintro ⟨⟩
      | remove i k =>
        simp only [Spec.Answers] at ha
        split at ha
        · subst ha; rintro ⟨⟩
        · obtain ⟨b, rfl, -⟩ := ha; rintro ⟨⟩
      | commit i =>
        simp only [Spec.Answers] at ha
        split at ha
        · obtain ⟨b, rfl⟩ := ha; rintro ⟨⟩
        · subst ha; rintro ⟨⟩
      | proof i k =>
        simp only [Spec.Answers] at ha
        split at ha
        · obtain ⟨b, rfl⟩ := ha; rintro ⟨⟩
        · subst ha; rintro ⟨⟩
    · rw [hs] at e; cases e

/-- A call returns the same, whatever else is in the database; and it does not return that a node is missing. -/
theorem Twins.ask {s s0 s0' : Sys} {σ : Spec.State} (h : Twins K s s0 σ) {a : Ask} {r : Ans} (ha : Spec.FitsAsk a) (hs : s0.ask K a = .ok (s0', r))
    (hnc : NoClash K s.db.log) :
    r ≠ .ret (.failed "MissingTrieNode") ∧ ∃ s', s.ask K a = .ok (s', r) ∧ (NoClash K s'.db.log → Twins K s' s0' (Spec.stepAsk σ a)) := by
  have hnc0 : NoClash K s0.db.log := hnc.subset h.log
  have hR := h.inv.db.reads hnc
  have hR0 := h.inv0.db.reads hnc0
  cases a with
  | get i k =>
    simp only [Sys.ask] at hs ⊢
    rcases ht0 : s0.tries[i]? with _ | tr <;> rw [ht0] at hs <;> rw [h.tries, ht0]
    · cases hs
      exact ⟨by rintro ⟨⟩, s, rfl, fun _ => h⟩
    · have ht : s.tries[i]? = some tr := by rw [h.tries]; exact ht0
      obtain ⟨m, hm, g⟩ := h.inv.tries.some ht
      have g0 := h.inv0.tries.2 i _ _ ht0 hm
      simp only [Trie.get_ok hR0 g0 k] at hs
      simp only [Trie.get_ok hR g k]
      cases hs
      exact ⟨by rintro ⟨⟩, s, rfl, fun _ => h⟩
  | contains i k =>
    simp only [Sys.ask] at hs ⊢
    rcases ht0 : s0.tries[i]? with _ | tr <;> rw [ht0] at hs <;> rw [h.tries, ht0]
    · cases hs
      exact ⟨by rintro ⟨⟩, s, rfl, fun _ => h⟩
    · have ht : s.tries[i]? = some tr := by rw [h.tries]; exact ht0
      obtain ⟨m, hm, g⟩ := h.inv.tries.some ht
      have g0 := h.inv0.tries.2 i _ _ ht0 hm
      simp only [Trie.contains_ok hR0 g0 k] at hs
      simp only [Trie.contains_ok hR g k]
      cases hs
      exact ⟨by rintro ⟨⟩, s, rfl, fun _ => h⟩
  | op o =>
    simp only [Sys.ask] at hs ⊢
    rcases e : s0.step K o with x | ⟨s1, r1⟩ <;> rw [e] at hs
    · cases hs
    cases hs
    obtain ⟨s', e', g⟩ := h.step ha e hnc
    rw [e']
    refine ⟨?_, s', rfl, g⟩
    have := h.inv0.not_missing ha hnc0 e
    intro hx
    injection hx with hx
    exact this hx

/-! ### Programs of one thread -/

theorem Sys.asks_append {s s1 s2 : Sys} {l l' : List Ask} {rs rs' : List Ans} (h : s.asks K l = .ok (s1, rs)) (h' : s1.asks K l' = .ok (s2, rs')) :
    s.asks K (l ++ l') = .ok (s2, rs ++ rs') := by
  induction l generalizing s rs with
  | nil => cases h; exact h'
  | cons a t ih =>
    rw [List.cons_append]
    unfold Sys.asks at h ⊢
    rcases h1 : s.ask K a with e | ⟨s3, r⟩ <;> rw [h1] at h
    · cases h
    · simp only at h ⊢
      rcases h2 : s3.asks K t with e | ⟨s4, rs4⟩ <;> rw [h2] at h <;> cases h
      rw [ih h2]
      rfl

theorem Sys.asks_split {s s2 : Sys} {l l' : List Ask} {rs : List Ans} (h : s.asks K (l ++ l') = .ok (s2, rs)) :
    ∃ s1 rs1 rs2, s.asks K l = .ok (s1, rs1) ∧ s1.asks K l' = .ok (s2, rs2) ∧ rs = rs1 ++ rs2 ∧ rs1.length = l.length := by
  induction l generalizing s rs with
  | nil => exact ⟨s, [], rs, rfl, h, rfl, rfl⟩
  | cons a t ih =>
    rw [List.cons_append] at h
    unfold Sys.asks at h
    rcases h1 : s.ask K a with e | ⟨s3, r⟩ <;> rw [h1] at h
    · cases h
    · simp only at h
      rcases h2 : s3.asks K (t ++ l') with e | ⟨s4, rs4⟩ <;> rw [h2] at h <;> cases h
      obtain ⟨s1, r1, r2, e1, e2, rfl, e3⟩ := ih h2
      refine ⟨s1, r :: r1, r2, ?_, e2, rfl, by simp [e3]⟩
      unfold Sys.asks
      rw [h1]
      simp only [e1]

theorem Sys.asks_single {s s1 : Sys} {a : Ask} {r : Ans} (h : s.ask K a = .ok (s1, r)) : s.asks K [a] = .ok (s1, [r]) := by
  unfold Sys.asks
  rw [h]
  rfl

/-! ### Threads -/

theorem DbInv.get_larger {d D : Db} (h : DbInv K d) (h' : DbInv K D) (hl : ∀ b ∈ d.log, b ∈ D.log) (hnc : NoClash K D.log) {x : H256} {b : Bytes}
    (hb : d.get x = some b) : D.get x = some b := by
  obtain ⟨rfl, hm⟩ := h.sound _ _ hb
  exact h'.reads hnc b (hl b hm)

theorem DbInv.remove {d : Db} (h : DbInv K d) (x : H256) : d.remove x = d := by
  unfold Db.remove
  rw [h.archive]
  rfl

/-- What holds of a thread whose program is `prog` and which started in `s`, when the database is `D`. -/
def ThreadInv (K : Keccak) (s : Sys) (σ : Spec.State) (prog : List Ask) (D : Db) (th : Thread) : Prop :=
  ∃ done s0, s.asks K done = .ok (s0, th.returned) ∧
    ((th.now = none ∧ prog = done ++ th.todo ∧ Twins K ⟨D, th.own.tries, th.own.roots⟩ s0 (done.foldl Spec.stepAsk σ)) ∨
    (∃ a c d s1 s0' r, th.now = some c ∧ prog = done ++ a :: th.todo ∧ s0.ask K a = .ok (s0', r) ∧ DbInv K d ∧ (∀ b ∈ d.log, b ∈ D.log) ∧
      c.run d = (s1.db, .ok (s1.own, r)) ∧ r ≠ .ret (.failed "MissingTrieNode") ∧ c.Strict K NodeLost ∧
      (NoClash K s1.db.log → Twins K s1 s0' ((done ++ [a]).foldl Spec.stepAsk σ))))

/-- No call of the program would panic alone. -/
def Goes (K : Keccak) (s : Sys) (σ : Spec.State) (prog : List Ask) : Prop :=
  ∀ done a rest s0 rs, prog = done ++ a :: rest → s.asks K done = .ok (s0, rs) → SysInv K False s0 (done.foldl Spec.stepAsk σ) → NoClash K s0.db.log →
    ∃ x, s0.ask K a = .ok x

theorem Goes.of_run {s sf : Sys} {prog : List Ask} {rs : List Ans} (h : s.asks K prog = .ok (sf, rs)) (σ : Spec.State) : Goes K s σ prog := by
  intro done a rest s0 rs' e e1 _ _
  rw [e] at h
  obtain ⟨s', rs1, rs2, e2, e3, -, -⟩ := Sys.asks_split h
  rw [e1] at e2
  cases e2
  unfold Sys.asks at e3
  rcases h1 : s0.ask K a with x | x <;> rw [h1] at e3
  · cases e3
  · exact ⟨x, rfl⟩

theorem Goes.of_noProof (s : Sys) (σ : Spec.State) {prog : List Ask} (hfit : ∀ a ∈ prog, Spec.FitsAsk a) (h : ∀ a ∈ prog, Spec.NoProofAsk a) :
    Goes K s σ prog := by
  intro done a rest s0 rs e e1 hi hnc
  have hf := hfit a (by rw [e]; simp)
  have hn := h a (by rw [e]; simp)
  have hR := hi.db.reads hnc
  cases a with
  | get i k =>
    simp only [Sys.ask]
    rcases ht : s0.tries[i]? with _ | tr
    · exact ⟨_, rfl⟩
    · obtain ⟨m, _, g⟩ := hi.tries.some ht
      simp only [Trie.get_ok hR g k]
      exact ⟨_, rfl⟩
  | contains i k =>
    simp only [Sys.ask]
    rcases ht : s0.tries[i]? with _ | tr
    · exact ⟨_, rfl⟩
    · obtain ⟨m, _, g⟩ := hi.tries.some ht
      simp only [Trie.contains_ok hR g k]
      exact ⟨_, rfl⟩
  | op o =>
    simp only [Sys.ask]
    rcases hi.step (op := o) hf False.elim hnc with ⟨s', r', e, _, g⟩ | ⟨_, _, _, _, rfl, _⟩
    · rw [e]
      exact ⟨_, rfl⟩
    · exact hn.elim

theorem ThreadInv.grow {s : Sys} {σ : Spec.State} {prog : List Ask} {D D' : Db} {th : Thread} (h : ThreadInv K s σ prog D th) (hd : DbInv K D')
    (hl : ∀ b ∈ D.log, b ∈ D'.log) : ThreadInv K s σ prog D' th := by
  obtain ⟨done, s0, e, ⟨g1, g2, g3⟩ | ⟨a, c, d, s1, s0', r, g1, g2, g3, g4, g5, g6⟩⟩ := h
  · exact ⟨done, s0, e, .inl ⟨g1, g2, g3.grow hd hl⟩⟩
  · exact ⟨done, s0, e, .inr ⟨a, c, d, s1, s0', r, g1, g2, g3, g4, fun b hb => hl b (g5 b hb), g6⟩⟩

theorem Thread.step_log (K : Keccak) (db : Db) (th : Thread) : ∀ b ∈ db.log, b ∈ (th.step K db).1.log := by
  intro b hb
  unfold Thread.step
  split
  · exact hb
  · exact hb
  · exact hb
  · exact hb
  · exact hb
  · exact List.mem_cons_of_mem _ hb
  · unfold Db.remove
    split
    · exact hb
    · exact hb

theorem ThreadInv.step {s : Sys} {σ : Spec.State} {prog : List Ask} {D : Db} {th : Thread} (h : ThreadInv K s σ prog D th) (hfit : ∀ a ∈ prog, Spec.FitsAsk a)
    (hok : Goes K s σ prog) (hD : DbInv K D) (hnc : NoClash K (th.step K D).1.log) :
    DbInv K (th.step K D).1 ∧ ThreadInv K s σ prog (th.step K D).1 (th.step K D).2 := by
  have hncD : NoClash K D.log := hnc.subset (Thread.step_log K D th)
  obtain ⟨own, now, todo, returned⟩ := th
  obtain ⟨done, s0, e, ⟨rfl, g2, g3⟩ | ⟨a, c, d, s1, s0', r, rfl, g2, g3, g4, g5, g6, g7, g8, g9⟩⟩ := h
  · dsimp only at g2 g3 e
    cases todo with
    | nil => exact ⟨hD, done, s0, e, .inl ⟨rfl, g2, g3⟩⟩
    | cons a todo =>
      refine ⟨hD, done, s0, e, .inr ?_⟩
      obtain ⟨⟨s0', r⟩, h1⟩ := hok done a todo s0 returned g2 e g3.inv0 (hncD.subset g3.log)
      obtain ⟨hr, s1, g4, g5⟩ := g3.ask (hfit a (by rw [g2]; simp)) h1 hncD
      refine ⟨a, _, D, s1, s0', r, rfl, g2, h1, hD, fun _ hb => hb, Sys.ask_run g4, hr, Own.strict_ask ?_ _ _, by rw [List.foldl_append]; exact g5⟩
      intro t ht
      obtain ⟨i, hi⟩ := List.getElem?_of_mem ht
      obtain ⟨m, _, hm⟩ := g3.inv.tries.some hi
      exact ⟨m, D, hm⟩
  · dsimp only at g2 g3 e
    cases c with
    | ret x =>
      cases x with
      | error x => cases g6
      | ok x =>
        obtain ⟨own', r'⟩ := x
        simp only [Call.run] at g6
        injection g6 with h1 h2
        injection h2 with h2
        injection h2 with h2 h3
        subst h2 h3
        refine ⟨hD, done ++ [a], s0', Sys.asks_append e (Sys.asks_single g3), .inl ⟨rfl, by simp [g2, Thread.step], ?_⟩⟩
        rw [h1] at g5
        exact (g9 (hncD.subset g5)).grow hD g5
    | get x k =>
      refine ⟨hD, done, s0, e, .inr ⟨a, _, d, s1, s0', r, rfl, g2, g3, g4, g5, ?_, g7, g8.2 _, g9⟩⟩
      rcases hx : d.get x with _ | b
      · exfalso
        obtain ⟨y, hy, hq⟩ := g8.1
        simp only [Call.run, hx, hy] at g6
        injection g6 with _ h2
        subst h2
        rcases hq with hq | ⟨o, hq⟩
        · cases hq
        · injection hq with hq
          injection hq with _ hq
          exact g7 hq
      · show (k (D.get x)).run d = _
        rw [g4.get_larger hD g5 hncD hx, ← hx]
        exact g6
    | insert x b k =>
      refine ⟨hD.insert g8.1, done, s0, e, .inr ⟨a, _, d.insert x b, s1, s0', r, rfl, g2, g3, g4.insert g8.1, ?_, g6, g7, g8.2, g9⟩⟩
      intro c hc
      rcases List.mem_cons.1 hc with rfl | hc
      · exact List.mem_cons_self
      · exact List.mem_cons_of_mem _ (g5 c hc)
    | remove x k =>
      refine ⟨?_, done, s0, e, .inr ⟨a, _, d, s1, s0', r, rfl, g2, g3, g4, ?_, ?_, g7, g8, g9⟩⟩
      · show DbInv K (D.remove x)
        rw [hD.remove]
        exact hD
      · show ∀ b ∈ d.log, b ∈ (D.remove x).log
        rw [hD.remove]
        exact g5
      · simp only [Call.run, g4.remove] at g6
        exact g6

theorem Pool.step_log (K : Keccak) (p : Pool) (t : Nat) : ∀ b ∈ p.db.log, b ∈ (p.step K t).db.log := by
  intro b hb
  unfold Pool.step
  split
  · exact hb
  · exact Thread.step_log K _ _ b hb

theorem Pool.run_log (K : Keccak) (schedule : List Nat) (p : Pool) : ∀ b ∈ p.db.log, b ∈ (p.run K schedule).db.log := by
  induction schedule generalizing p with
  | nil => exact fun _ hb => hb
  | cons t l ih => exact fun b hb => ih (p.step K t) b (Pool.step_log K p t b hb)

/-- What holds of all threads. -/
def PoolInv (K : Keccak) (s : Sys) (σ : Spec.State) (progs : List (List Ask)) (p : Pool) : Prop :=
  DbInv K p.db ∧ Both (fun th prog => ThreadInv K s σ prog p.db th) p.threads progs

theorem PoolInv.start {s : Sys} {σ : Spec.State} (h : SysInv K False s σ) (progs : List (List Ask)) : PoolInv K s σ progs (Pool.start s progs) := by
  refine ⟨h.db, by simp [Pool.start], fun i th prog h1 h2 => ?_⟩
  simp only [Pool.start, List.getElem?_map, h2, Option.map_some] at h1
  cases h1
  exact ⟨[], s, rfl, .inl ⟨rfl, rfl, Twins.refl h⟩⟩

theorem PoolInv.step {s : Sys} {σ : Spec.State} {progs : List (List Ask)} {p : Pool} (h : PoolInv K s σ progs p) (hfit : ∀ prog ∈ progs, ∀ a ∈ prog, Spec.FitsAsk a)
    (hok : ∀ prog ∈ progs, Goes K s σ prog) (t : Nat) (hnc : NoClash K (p.step K t).db.log) : PoolInv K s σ progs (p.step K t) := by
  rcases ht : p.threads[t]? with _ | th
  · simp only [Pool.step, ht]
    exact h
  · simp only [Pool.step, ht] at hnc ⊢
    obtain ⟨prog, hp, hi⟩ := h.2.some ht
    have hm := List.mem_of_getElem? hp
    obtain ⟨g1, g2⟩ := hi.step (hfit prog hm) (hok prog hm) h.1 hnc
    refine ⟨g1, (h.2.mono fun _ _ hx => hx.grow g1 (Thread.step_log K _ _)).set_left t fun y hy => ?_⟩
    rw [hp] at hy
    cases hy
    exact g2

theorem PoolInv.run {s : Sys} {σ : Spec.State} {progs : List (List Ask)} {p : Pool} (h : PoolInv K s σ progs p) (hfit : ∀ prog ∈ progs, ∀ a ∈ prog, Spec.FitsAsk a)
    (hok : ∀ prog ∈ progs, Goes K s σ prog) (schedule : List Nat) (hnc : NoClash K (p.run K schedule).db.log) :
    PoolInv K s σ progs (p.run K schedule) := by
  induction schedule generalizing p with
  | nil => exact h
  | cons t l ih => exact ih (h.step hfit hok t (hnc.subset (Pool.run_log K l _))) hnc

/-! ### Every call ends -/

theorem Pool.run_append (K : Keccak) (p : Pool) (l l' : List Nat) : p.run K (l ++ l') = (p.run K l).run K l' := List.foldl_append ..

theorem Pool.step_other (K : Keccak) (p : Pool) {t u : Nat} (h : u ≠ t) : (p.step K u).threads[t]? = p.threads[t]? := by
  unfold Pool.step
  split
  · rfl
  · simp [h]

theorem Pool.step_self (K : Keccak) (p : Pool) {t : Nat} {th : Thread} (h : p.threads[t]? = some th) :
    (p.step K t).threads[t]? = some (th.step K p.db).2 := by
  unfold Pool.step
  rw [h]
  have := (List.getElem?_eq_some_iff.1 h).1
  simp [this]

theorem Pool.after_succ (K : Keccak) (p : Pool) (schedule : Nat → Nat) (n : Nat) :
    p.after K schedule (n + 1) = (p.after K schedule n).step K (schedule n) := by
  unfold Pool.after
  rw [List.range_succ, List.map_append, Pool.run_append]
  rfl

section Fair
variable {p : Pool} {schedule : Nat → Nat} {t : Nat} (hfair : ∀ n, ∃ m, n ≤ m ∧ schedule m = t)
include hfair

/-- The thread makes a next step. -/
theorem Pool.next {n : Nat} {th : Thread} (h : (p.after K schedule n).threads[t]? = some th) :
    ∃ m db, n < m ∧ (p.after K schedule m).threads[t]? = some (th.step K db).2 := by
  obtain ⟨m, hm, hs⟩ := hfair n
  obtain ⟨j, rfl⟩ := Nat.exists_eq_add_of_le hm
  clear hm
  induction j generalizing n with
  | zero =>
    refine ⟨n + 1, (p.after K schedule n).db, by omega, ?_⟩
    rw [Pool.after_succ]
    rw [show schedule n = t from hs]
    exact Pool.step_self K _ h
  | succ j ih =>
    by_cases hn : schedule n = t
    · refine ⟨n + 1, (p.after K schedule n).db, by omega, ?_⟩
      rw [Pool.after_succ, hn]
      exact Pool.step_self K _ h
    · have h' : (p.after K schedule (n + 1)).threads[t]? = some th := by
        rw [Pool.after_succ, Pool.step_other K _ hn]
        exact h
      obtain ⟨m, db, h1, h2⟩ := ih h' (by rw [← hs]; congr 1; omega)
      exact ⟨m, db, by omega, h2⟩

theorem Pool.ends_call (c : Call (Res (Own × Ans))) {n : Nat} {th : Thread} (h : (p.after K schedule n).threads[t]? = some th) (hc : th.now = some c) :
    ∃ m th', n ≤ m ∧ (p.after K schedule m).threads[t]? = some th' ∧ (Spec.Panicked th' ∨ (th'.now = none ∧ th'.todo = th.todo)) := by
  induction c generalizing n th with
  | ret x =>
    cases x with
    | error e => exact ⟨n, th, Nat.le_refl _, h, .inl ⟨e, hc⟩⟩
    | ok x =>
      obtain ⟨m, db, h1, h2⟩ := Pool.next hfair h
      refine ⟨m, _, by omega, h2, .inr ?_⟩
      obtain ⟨own, now, todo, ret⟩ := th
      cases hc
      exact ⟨rfl, rfl⟩
  | get x k ih =>
    obtain ⟨m, db, h1, h2⟩ := Pool.next hfair h
    obtain ⟨own, now, todo, ret⟩ := th
    cases hc
    obtain ⟨m', th', g1, g2, g3⟩ := ih (db.get x) h2 rfl
    exact ⟨m', th', by omega, g2, g3⟩
  | insert x b k ih =>
    obtain ⟨m, db, h1, h2⟩ := Pool.next hfair h
    obtain ⟨own, now, todo, ret⟩ := th
    cases hc
    obtain ⟨m', th', g1, g2, g3⟩ := ih h2 rfl
    exact ⟨m', th', by omega, g2, g3⟩
  | remove x k ih =>
    obtain ⟨m, db, h1, h2⟩ := Pool.next hfair h
    obtain ⟨own, now, todo, ret⟩ := th
    cases hc
    obtain ⟨m', th', g1, g2, g3⟩ := ih h2 rfl
    exact ⟨m', th', by omega, g2, g3⟩

theorem Pool.ends {n : Nat} {th : Thread} (h : (p.after K schedule n).threads[t]? = some th) (hc : th.now = none) :
    ∃ m th', n ≤ m ∧ (p.after K schedule m).threads[t]? = some th' ∧ (Spec.Panicked th' ∨ Spec.Finished th') := by
  obtain ⟨own, now, todo, ret⟩ := th
  cases hc
  induction todo generalizing n own ret with
  | nil => exact ⟨n, _, Nat.le_refl _, h, .inr ⟨rfl, rfl⟩⟩
  | cons a todo ih =>
    obtain ⟨m, db, h1, h2⟩ := Pool.next hfair h
    obtain ⟨m', ⟨own', now', todo', ret'⟩, g1, g2, g3 | ⟨g3, g4⟩⟩ := Pool.ends_call hfair _ h2 rfl
    · exact ⟨m', _, by omega, g2, .inl g3⟩
    · cases g3
      cases g4
      obtain ⟨m'', th'', k1, k2, k3⟩ := ih _ _ g2
      exact ⟨m'', th'', by omega, k2, k3⟩

end Fair

end Verif.Pmt
