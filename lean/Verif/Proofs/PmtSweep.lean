import Verif.Pmt.Sweep
import Verif.Proofs.PmtIter
import Verif.Proofs.PmtThreads
/-!
An iterator finds the same in any database that has the nodes of its trie.
-/

set_option autoImplicit false

namespace Verif.Pmt

open PT

variable {K : Keccak} {S : Bytes → Prop} {d d' : Db}

/-- Everything on the stack stands for a tree that is stored. -/
def Fed (K : Keccak) (S : Bytes → Prop) (it : Iter) : Prop := ∀ e ∈ it.nodes, ∃ t, RepRoot K S e.1 t ∧ Ok t (2 ^ 60)

theorem Fed.mono {S' : Bytes → Prop} (hS : ∀ b, S b → S' b) {it : Iter} (h : Fed K S it) : Fed K S' it := by
  intro e he
  obtain ⟨t, h1, h2⟩ := h e he
  exact ⟨t, h1.mono hS, h2⟩

/-- What a stored hash node leads to. -/
theorem recover_fed {h : H256} {t : PT} (hR : Reads K S d) (hr : RepRoot K S (.hash h) t) (hok : Ok t (2 ^ 60)) :
    recover d h = .ok (some (top K t)) ∧ RepRoot K S (top K t) t := by
  have key : Held K S t → h = K (enc K t) → recover d h = .ok (some (top K t)) ∧ RepRoot K S (top K t) t := by
    rintro hh rfl
    refine ⟨?_, .node (rep_top hh.2)⟩
    unfold recover
    rw [hR _ hh.1]
    simp only
    rw [decodeNode_enc hok]
    rfl
  cases hr with
  | node hr => cases hr with | hash hl hh => exact key hh rfl
  | hash hh => exact key hh rfl

theorem Fed.same {it : Iter} (h : Fed K S it) (hR : Reads K S d) (hR' : Reads K S d') : it.round d = it.round d' := by
  obtain ⟨nibble, nodes⟩ := it
  rcases nodes with _ | ⟨⟨node, status⟩, rest⟩
  · rfl
  · rcases node with _ | _ | _ | _ | x
    case hash =>
      obtain ⟨t, h1, h2⟩ := h _ (List.mem_cons_self ..)
      rcases status with _ | _ | _ | _
      case doing => simp only [Iter.round, (recover_fed hR h1 h2).1, (recover_fed hR' h1 h2).1]
      all_goals rfl
    case branch v => rcases status with _ | _ | _ | _ <;> rcases v with _ | _ <;> rfl
    all_goals rcases status with _ | _ | _ | _ <;> rfl

/-- The iterator after a round. -/
def Round.iter : Round → Iter
  | .go it => it
  | .pair it _ _ => it
  | .none it => it

theorem Fed.step {it : Iter} (h : Fed K S it) (hR : Reads K S d) {r : Round} (hr : it.round d = .ok r) : Fed K S r.iter := by
  obtain ⟨nibble, nodes⟩ := it
  rcases nodes with _ | ⟨⟨node, status⟩, rest⟩
  · cases hr; exact h
  have hrest : ∀ e ∈ rest, ∃ t, RepRoot K S e.1 t ∧ Ok t (2 ^ 60) := fun e he => h e (List.mem_cons_of_mem _ he)
  obtain ⟨t, ht, hok⟩ := h _ (List.mem_cons_self ..)
  have keep : ∀ st x, Fed K S ⟨x, (node, st) :: rest⟩ := by
    intro st x e he
    rcases List.mem_cons.1 he with rfl | he
    · exact ⟨t, ht, hok⟩
    · exact hrest e he
  have deeper : ∀ n st x, (∃ t, RepRoot K S n t ∧ Ok t (2 ^ 60)) → Fed K S ⟨x, (n, .start) :: (node, st) :: rest⟩ := by
    intro n st x hn e he
    rcases List.mem_cons.1 he with rfl | he
    · exact hn
    · exact keep st x e he
  have swap : ∀ n x, (∃ t, RepRoot K S n t ∧ Ok t (2 ^ 60)) → Fed K S ⟨x, (n, .start) :: rest⟩ := by
    intro n x hn e he
    rcases List.mem_cons.1 he with rfl | he
    · exact hn
    · exact hrest e he
  rcases status with _ | _ | i | _
  · rcases node with _ | _ | _ | _ | x <;> cases hr <;> first | exact keep _ _ | exact hrest
  · rcases node with _ | ⟨k, v⟩ | ⟨q, n⟩ | ⟨cs, v⟩ | x
    · cases hr; exact hrest
    · simp only [Iter.round] at hr
      obtain ⟨a, hr⟩ := bind_ok hr
      cases hr
      exact keep _ _
    · cases hr
      refine deeper _ _ _ ?_
      cases ht with
      | node ht => cases ht with | ext p h => exact ⟨_, .node h, ok_sub hok⟩
    · rcases v with _ | v
      · cases hr; exact keep _ _
      · simp only [Iter.round] at hr
        obtain ⟨a, hr⟩ := bind_ok hr
        cases hr
        exact keep _ _
    · simp only [Iter.round, (recover_fed hR ht hok).1] at hr
      cases hr
      exact swap _ _ ⟨t, (recover_fed hR ht hok).2, hok⟩
  · rcases node with _ | ⟨k, v⟩ | ⟨q, n⟩ | ⟨cs, v⟩ | x
    · cases hr; exact hrest
    · cases hr; exact keep _ _
    · cases hr; exact keep _ _
    · simp only [Iter.round] at hr
      split at hr
      · cases hr
        refine deeper _ _ _ ?_
        cases ht with
        | node ht => cases ht with | branch v h => exact ⟨_, .node (h _), ok_child hok _⟩
      · cases hr
    · cases hr; exact keep _ _
  · simp only [Iter.round] at hr
    obtain ⟨a, hr⟩ := bind_ok hr
    cases hr
    exact hrest

theorem Fed.next {it : Iter} (h : Fed K S it) (hR : Reads K S d) (hR' : Reads K S d') (fuel : Nat) : it.next d fuel = it.next d' fuel := by
  induction fuel generalizing it with
  | zero => rfl
  | succ fuel ih =>
    have e := h.same hR hR'
    unfold Iter.next
    rw [← e]
    rcases hr : it.round d with e | r
    · rfl
    · have := h.step hR hr
      rcases r with it1 | ⟨it1, k, v⟩ | it1
      · exact ih this
      · rfl
      · rfl

theorem Fed.after {it it1 : Iter} {x : Option (Bytes × Bytes)} (h : Fed K S it) (hR : Reads K S d) {fuel : Nat} (hn : it.next d fuel = .ok (it1, x)) :
    Fed K S it1 := by
  induction fuel generalizing it with
  | zero => cases hn
  | succ fuel ih =>
    unfold Iter.next at hn
    rcases hr : it.round d with e | r
    · rw [hr] at hn; cases hn
    · have := h.step hR hr
      rw [hr] at hn
      rcases r with it1 | ⟨it1, k, v⟩ | it1
      · exact ih this hn
      · cases hn; exact this
      · cases hn; exact this

/-! ### Other calls in between -/

/-- The iterator does not notice what the calls in between do. -/
theorem Fed.sweep {d0 : Db} (hR : Reads K S d0) (fuel : Nat) (blocks : List (List Op)) {s s' : Sys} {σ : Spec.State} {it : Iter} {rs : List Ret}
    (h : Fed K S it) (hs : SysInv K False s σ) (hS : ∀ b, S b → b ∈ s.db.log) (hfit : ∀ ops ∈ blocks, ∀ op ∈ ops, Spec.Fits op)
    (hrun : s.run K blocks.flatten = .ok (s', rs)) (hnc : NoClash K s'.db.log) :
    s.sweep K fuel it blocks = (it.calls d0 fuel blocks.length).map (fun r => (s', r.1, r.2)) := by
  induction blocks generalizing s σ it rs with
  | nil => cases hrun; rfl
  | cons ops blocks ih =>
    rw [List.flatten_cons] at hrun
    obtain ⟨s1, r1, r2, e1, e2⟩ := run_append hrun
    have hnc1 : NoClash K s1.db.log := hnc.subset (Sys.run_log e2)
    have hs1 := hs.run (hfit ops (List.mem_cons_self ..)) False.elim e1 hnc1
    have hl := Sys.run_log e1
    have hR1 : Reads K S s1.db := fun b hb => hs1.db.reads hnc1 b (hl b (hS b hb))
    have en := h.next hR1 hR fuel
    rw [Sys.sweep, e1]
    simp only [en, List.length_cons, Iter.calls]
    rcases hn : it.next d0 fuel with e | ⟨it1, x⟩
    · rfl
    · have := ih (h.after hR hn) hs1 (fun b hb => hl b (hS b hb)) (fun ops ho => hfit ops (List.mem_cons_of_mem _ ho)) e2
      simp only [this]
      rcases it1.calls d0 fuel blocks.length with e | ⟨it2, l⟩ <;> rfl

theorem Yields.calls {n : Nat} {it it' : Iter} {l : List (Bytes × Bytes)} (h : Yields d n it l it') (he : it'.nodes = []) {fuel : Nat} (hf : n < fuel)
    (c : Nat) : ∃ it1, it.calls d fuel c = .ok (it1, (l.map some ++ List.replicate c none).take c) := by
  induction c generalizing n it l with
  | zero => exact ⟨it, by simp [Iter.calls]⟩
  | succ c ih =>
    have hn := h.next he hf
    rcases l with _ | ⟨x, l⟩
    · simp only at hn
      have hrep : Yields d 0 it' [] it' := .refl it'
      obtain ⟨it1, e⟩ := ih hrep (by omega)
      refine ⟨it1, ?_⟩
      simp only [Iter.calls, hn, e]
      simp [List.replicate_succ]
    · obtain ⟨it1, m, h1, h2, h3⟩ := hn
      obtain ⟨it2, e⟩ := ih h3 (by omega)
      refine ⟨it2, ?_⟩
      simp only [Iter.calls, h2, e]
      congr 2
      rw [List.map_cons, List.cons_append, List.take_succ_cons]
      congr 1
      rw [List.replicate_succ', ← List.append_assoc, List.take_append_of_le_length (i := c) (l₂ := [none]) (by simp)]

/-! ### Threads -/

/-- The iterator does not notice what the threads do. -/
theorem Fed.pool {d0 : Db} (hR : Reads K S d0) {s : Sys} {σ : Spec.State} {progs : List (List Ask)} (hfit : ∀ prog ∈ progs, ∀ a ∈ prog, Spec.FitsAsk a)
    (hok : ∀ prog ∈ progs, Goes K s σ prog) (schedule : List (Option Nat)) {p : Pool} {it it' : Iter} {n : Nat} {l : List (Bytes × Bytes)}
    (h : Fed K S it) (hp : PoolInv K s σ progs p) (hS : ∀ b, S b → b ∈ p.db.log) (hy : Yields d0 n it l it') (he : it'.nodes = [])
    (hnc : NoClash K (p.run K (schedule.filterMap id)).db.log) :
    ∃ it1 out, p.sweep K it schedule = .ok (p.run K (schedule.filterMap id), it1, out) ∧ out <+: l ∧ (n ≤ schedule.count none → out = l) := by
  induction schedule generalizing p it n l with
  | nil =>
    refine ⟨it, [], rfl, List.nil_prefix, fun hn => ?_⟩
    simp only [List.count_nil, Nat.le_zero] at hn
    subst hn
    cases hy
    rfl
  | cons x schedule ih =>
    rcases x with _ | t
    · simp only [List.filterMap_cons, id_eq] at hnc ⊢
      have hR1 : Reads K S p.db := fun b hb => hp.1.reads (hnc.subset (Pool.run_log K _ p)) b (hS b hb)
      have es := h.same hR1 hR
      rw [List.count_cons_self]
      cases hy with
      | refl =>
        have hr : it'.round p.db = .ok (.none it') := by
          unfold Iter.round
          simp only [he]
        obtain ⟨it1, out, e, h1, h2⟩ := ih h hp hS (.refl _) hnc
        exact ⟨it1, out, by rw [Pool.sweep, hr]; exact e, h1, fun _ => h2 (by omega)⟩
      | go hr hy =>
        rw [← es] at hr
        obtain ⟨it1, out, e, h1, h2⟩ := ih (h.step hR1 hr) hp hS hy hnc
        exact ⟨it1, out, by rw [Pool.sweep, hr]; exact e, h1, fun hn => h2 (by omega)⟩
      | pair hr hy =>
        rw [← es] at hr
        obtain ⟨it1, out, e, h1, h2⟩ := ih (h.step hR1 hr) hp hS hy hnc
        refine ⟨it1, _ :: out, by rw [Pool.sweep, hr]; simp only [Round.iter] at e; simp only [e]; rfl, ?_, fun hn => ?_⟩
        · exact List.cons_prefix_cons.2 ⟨rfl, h1⟩
        · rw [h2 (by omega)]
    · simp only [List.filterMap_cons, id_eq] at hnc ⊢
      rw [Pool.run, List.foldl_cons] at hnc ⊢
      have hl := Pool.step_log K p t
      obtain ⟨it1, out, e, h1, h2⟩ := ih h (hp.step hfit hok t (hnc.subset (Pool.run_log K _ _))) (fun b hb => hl b (hS b hb)) hy hnc
      exact ⟨it1, out, e, h1, fun hn => h2 (by simpa using hn)⟩

end Verif.Pmt
