import Verif.Proofs.PmtThreads
import Verif.Props.PmtExamples
/-!
C98: threads that share an archive database do not disturb each other.
-/

set_option autoImplicit false

namespace Verif.Props
open Verif Verif.Pmt PmtEx

variable {K : Keccak}

theorem asks_length {s sf : Sys} {prog : List Ask} {rs : List Ans} (h : s.asks K prog = .ok (sf, rs)) : rs.length = prog.length := by
  rw [← List.append_nil prog] at h
  obtain ⟨_, rs1, rs2, _, e, rfl, h1⟩ := Sys.asks_split h
  cases e
  simpa using h1

theorem asks_det {s s1 s2 : Sys} {prog : List Ask} {rs1 rs2 : List Ans} (h1 : s.asks K prog = .ok (s1, rs1)) (h2 : s.asks K prog = .ok (s2, rs2)) :
    s1 = s2 ∧ rs1 = rs2 := by
  rw [h1] at h2
  cases h2
  exact ⟨rfl, rfl⟩

theorem ThreadInv.not_panicked {s : Sys} {σ : Spec.State} {prog : List Ask} {D : Db} {th : Thread} (h : ThreadInv K s σ prog D th) : ¬ Spec.Panicked th := by
  rintro ⟨e, he⟩
  obtain ⟨done, s0, _, ⟨g1, _⟩ | ⟨a, c, d, s1, s0', r, g1, _, _, _, _, g6, _⟩⟩ := h
  · rw [he] at g1; cases g1
  · rw [he] at g1
    cases g1
    cases g6

/-- **C98**: several threads have clones of the tries that a program has made on an archive database, and each makes calls of its own, in any interleaving of the
accesses to the database. No thread panics, what a thread has got back are the first results of its program run alone, and when it is finished it has
got back all of them and its tries are those of the program run alone; or two of the stored byte strings collide. -/
theorem C98_threads_partial {ops : List Op} (hfit : ∀ op ∈ ops, Spec.Fits op) {s : Sys} {rs0 : List Ret} (hrun : (Sys.new false).run K ops = .ok (s, rs0))
    {progs : List (List Ask)} (hp : ∀ prog ∈ progs, ∀ a ∈ prog, Spec.FitsAsk a) (halone : ∀ prog ∈ progs, ∃ sf rs, s.asks K prog = .ok (sf, rs))
    (schedule : List Nat) :
    Spec.Collision K ((Pool.start s progs).run K schedule).db.log ∨
    ∀ (t : Nat) th prog sf rs, ((Pool.start s progs).run K schedule).threads[t]? = some th → progs[t]? = some prog → s.asks K prog = .ok (sf, rs) →
      ¬ Spec.Panicked th ∧ th.returned <+: rs ∧ (Spec.Finished th → th.returned = rs ∧ th.own.tries = sf.tries ∧ th.own.roots = sf.roots) := by
  rcases collision_or K ((Pool.start s progs).run K schedule).db.log with hc | hnc
  · exact .inl hc
  right
  intro t th prog sf rs h1 h2 h3
  have hncs : NoClash K s.db.log := hnc.subset (Pool.run_log K schedule (Pool.start s progs))
  have hs := SysInv.new.run (P := False) hfit False.elim hrun hncs
  have hi := (PoolInv.start hs progs).run hp (fun prog hm => by obtain ⟨sf, rs, h⟩ := halone prog hm; exact Goes.of_run h _) schedule hnc
  have ht := hi.2.2 t th prog h1 h2
  refine ⟨ThreadInv.not_panicked ht, ?_, ?_⟩
  · obtain ⟨done, s0, e, g⟩ := ht
    have : ∃ rest, prog = done ++ rest := by
      rcases g with ⟨_, g, _⟩ | ⟨a, _, _, _, _, _, _, g, _⟩
      · exact ⟨_, g⟩
      · exact ⟨_, g⟩
    obtain ⟨rest, rfl⟩ := this
    obtain ⟨s1, rs1, rs2, e1, -, rfl, -⟩ := Sys.asks_split h3
    rw [(asks_det e e1).2]
    exact List.prefix_append _ _
  · rintro ⟨f1, f2⟩
    obtain ⟨done, s0, e, ⟨_, g2, g3⟩ | ⟨a, c, d, s1, s0', r, g1, _⟩⟩ := ht
    · rw [f2, List.append_nil] at g2
      subst g2
      obtain ⟨rfl, e1⟩ := asks_det e h3
      exact ⟨e1, g3.tries, g3.roots⟩
    · rw [f1] at g1; cases g1

/-- **C98**, programs without `get_proof`, which is the only call that may panic: no thread panics, and what it has got back are the results of as many calls of
its program made alone. -/
theorem C98_no_proof_partial {ops : List Op} (hfit : ∀ op ∈ ops, Spec.Fits op) {s : Sys} {rs0 : List Ret} (hrun : (Sys.new false).run K ops = .ok (s, rs0))
    {progs : List (List Ask)} (hp : ∀ prog ∈ progs, ∀ a ∈ prog, Spec.FitsAsk a) (hn : ∀ prog ∈ progs, ∀ a ∈ prog, Spec.NoProofAsk a)
    (schedule : List Nat) :
    Spec.Collision K ((Pool.start s progs).run K schedule).db.log ∨
    ∀ (t : Nat) th prog, ((Pool.start s progs).run K schedule).threads[t]? = some th → progs[t]? = some prog →
      ¬ Spec.Panicked th ∧ ∃ sf, s.asks K (prog.take th.returned.length) = .ok (sf, th.returned) ∧
        (Spec.Finished th → th.returned.length = prog.length ∧ th.own.tries = sf.tries ∧ th.own.roots = sf.roots) := by
  rcases collision_or K ((Pool.start s progs).run K schedule).db.log with hc | hnc
  · exact .inl hc
  right
  intro t th prog h1 h2
  have hncs : NoClash K s.db.log := hnc.subset (Pool.run_log K schedule (Pool.start s progs))
  have hs := SysInv.new.run (P := False) hfit False.elim hrun hncs
  have hi := (PoolInv.start hs progs).run hp (fun prog hm => Goes.of_noProof s _ (hp prog hm) (hn prog hm)) schedule hnc
  have ht := hi.2.2 t th prog h1 h2
  refine ⟨ThreadInv.not_panicked ht, ?_⟩
  obtain ⟨done, s0, e, g⟩ := ht
  have hlen := asks_length e
  have : prog.take th.returned.length = done := by
    rcases g with ⟨_, g, _⟩ | ⟨a, _, _, _, _, _, _, g, _⟩ <;> rw [g, hlen, List.take_left]
  refine ⟨s0, by rw [this]; exact e, ?_⟩
  rintro ⟨f1, f2⟩
  rcases g with ⟨_, g2, g3⟩ | ⟨a, c, d, s1, s0', r, g1, _⟩
  · rw [f2, List.append_nil] at g2
    exact ⟨by rw [hlen, g2], g3.tries, g3.roots⟩
  · rw [f1] at g1; cases g1

/-- **C98**, in terms of maps: between two calls of a thread, each of its tries reads as the map that its own calls have made of it, whatever the other threads
have done and are doing. -/
theorem C98_maps_partial {ops : List Op} (hfit : ∀ op ∈ ops, Spec.Fits op) {s : Sys} {rs0 : List Ret} (hrun : (Sys.new false).run K ops = .ok (s, rs0))
    {progs : List (List Ask)} (hp : ∀ prog ∈ progs, ∀ a ∈ prog, Spec.FitsAsk a) (hn : ∀ prog ∈ progs, ∀ a ∈ prog, Spec.NoProofAsk a)
    (schedule : List Nat) :
    Spec.Collision K ((Pool.start s progs).run K schedule).db.log ∨
    ∀ (t : Nat) th prog, ((Pool.start s progs).run K schedule).threads[t]? = some th → progs[t]? = some prog → th.now = none →
      th.own.tries.length = ((prog.take th.returned.length).foldl Spec.stepAsk (Spec.run ops)).maps.length ∧
      ∀ (i : Nat) tr m, th.own.tries[i]? = some tr → ((prog.take th.returned.length).foldl Spec.stepAsk (Spec.run ops)).maps[i]? = some m →
        ∀ k, tr.get ((Pool.start s progs).run K schedule).db k = .ok (m k) := by
  rcases collision_or K ((Pool.start s progs).run K schedule).db.log with hc | hnc
  · exact .inl hc
  right
  intro t th prog h1 h2 h3
  have hncs : NoClash K s.db.log := hnc.subset (Pool.run_log K schedule (Pool.start s progs))
  have hs := SysInv.new.run (P := False) hfit False.elim hrun hncs
  have hi := (PoolInv.start hs progs).run hp (fun prog hm => Goes.of_noProof s _ (hp prog hm) (hn prog hm)) schedule hnc
  obtain ⟨done, s0, e, ⟨_, g2, g3⟩ | ⟨a, c, d, s1, s0', r, g1, _⟩⟩ := hi.2.2 t th prog h1 h2
  · have : prog.take th.returned.length = done := by rw [g2, asks_length e, List.take_left]
    rw [this]
    exact ⟨g3.inv.tries.1, fun i tr m hi hm k => Trie.get_ok (g3.inv.db.reads hnc) (g3.inv.tries.2 i tr m hi hm) k⟩
  · rw [h3] at g1; cases g1

/-- **C98**, every thread gets on: if the schedule lets the thread make steps again and again, it comes to the end of its program, whatever the others do, and has
got back what the program returns alone. -/
theorem C98_finishes_partial {ops : List Op} (hfit : ∀ op ∈ ops, Spec.Fits op) {s : Sys} {rs0 : List Ret} (hrun : (Sys.new false).run K ops = .ok (s, rs0))
    {progs : List (List Ask)} (hp : ∀ prog ∈ progs, ∀ a ∈ prog, Spec.FitsAsk a) (halone : ∀ prog ∈ progs, ∃ sf rs, s.asks K prog = .ok (sf, rs))
    {t : Nat} {prog : List Ask} (ht : progs[t]? = some prog) {sf : Sys} {rs : List Ans} (ha : s.asks K prog = .ok (sf, rs)) {schedule : Nat → Nat}
    (hfair : ∀ n, ∃ m, n ≤ m ∧ schedule m = t) :
    ∃ n, Spec.Collision K ((Pool.start s progs).after K schedule n).db.log ∨
      ∃ th, ((Pool.start s progs).after K schedule n).threads[t]? = some th ∧ Spec.Finished th ∧ th.returned = rs ∧ th.own.tries = sf.tries := by
  have h0 : ((Pool.start s progs).after K schedule 0).threads[t]? = some ⟨⟨s.tries, s.roots⟩, none, prog, []⟩ := by
    show (Pool.start s progs).threads[t]? = _
    simp [Pool.start, ht]
  obtain ⟨n, th, -, h1, h2⟩ := Pool.ends hfair h0 rfl
  refine ⟨n, ?_⟩
  rcases C98_threads_partial hfit hrun hp halone ((List.range n).map schedule) with hc | h
  · exact .inl hc
  · obtain ⟨g1, -, g3⟩ := h t th prog sf rs h1 ht ha
    rcases h2 with h2 | h2
    · exact absurd h2 g1
    · exact .inr ⟨th, h1, h2, (g3 h2).1, (g3 h2).2.1⟩

/-! ### Examples -/

/-- What a call returned, as text and bytes. -/
def ansText : Ans → String × Option Bytes
  | .ret .none => ("none", none)
  | .ret .done => ("done", none)
  | .ret (.removed b) => (if b then "removed" else "not removed", none)
  | .ret (.root h) => ("root", some h.1)
  | .ret (.proof l) => ("proof", l.head?)
  | .ret (.failed m) => (m, none)
  | .value v => ("value", v)
  | .found b => (if b then "found" else "not found", none)

/-- One thread changes the trie and commits, another one reads it, changes it otherwise and opens the first commit, the third one asks for a proof. -/
def exProgs : List (List Ask) :=
  [[.op (.insert 0 [0x12, 0x34] [7]), .op (.commit 0), .get 0 [0x12, 0x34]],
   [.get 0 [0x12, 0x34], .op (.remove 0 [0x92, 0x55]), .op (.commit 0), .op (.openAt 0), .contains 1 [0x92, 0x55]],
   [.op (.proof 0 [0x12, 0x34])]]

def exStart : List Op := [.new, .insert 0 [0x12, 0x34] (long 1), .insert 0 [0x12, 0x35] [7], .insert 0 [0x92, 0x55] (long 2), .commit 0]

theorem exStart_fits : ∀ op ∈ exStart, Spec.Fits op := by
  intro op hop
  simp only [exStart, List.mem_cons, List.not_mem_nil, or_false] at hop
  rcases hop with rfl | rfl | rfl | rfl | rfl <;> simp [Spec.Fits, long]

theorem exProgs_fits : ∀ prog ∈ exProgs, ∀ a ∈ prog, Spec.FitsAsk a := by
  intro prog hm a ha
  simp only [exProgs, List.mem_cons, List.not_mem_nil, or_false] at hm
  rcases hm with rfl | rfl | rfl <;> simp only [List.mem_cons, List.not_mem_nil, or_false] at ha
  · rcases ha with rfl | rfl | rfl <;> simp [Spec.FitsAsk, Spec.Fits]
  · rcases ha with rfl | rfl | rfl | rfl | rfl <;> simp [Spec.FitsAsk, Spec.Fits]
  · subst ha; simp [Spec.FitsAsk, Spec.Fits]

/-- What a program returns alone. -/
def alone (light : Bool) (prog : List Ask) : Sys × List Ans := ((result light exStart).1.asks exK prog).toOption.getD (Sys.new light, [])

theorem alone_eq {light : Bool} {prog : List Ask} (h : ((result light exStart).1.asks exK prog).toOption.isSome = true) :
    (result light exStart).1.asks exK prog = .ok ((alone light prog).1, (alone light prog).2) := by
  unfold alone
  generalize (result light exStart).1.asks exK prog = x at *
  cases x with
  | error => cases h
  | ok => rfl

theorem exProgs_alone : ∀ prog ∈ exProgs, ∃ sf rs, (result false exStart).1.asks exK prog = .ok (sf, rs) := by
  have : ∀ prog ∈ exProgs, ((result false exStart).1.asks exK prog).toOption.isSome = true := by decide +kernel
  exact fun prog hm => ⟨_, _, alone_eq (this prog hm)⟩

/-- The threads take turns, one access each. -/
def exSchedule : List Nat := (List.range 90).map (· % 3)

/-- All texts that a thread got back. -/
def exTexts (p : Pool) (t : Nat) : List (String × Option Bytes) := ((p.threads[t]?).map (fun th => th.returned.map ansText)).getD []

theorem exPool : ¬ Spec.Collision exK ((Pool.start (result false exStart).1 exProgs).run exK exSchedule).db.log ∧
    (exTexts ((Pool.start (result false exStart).1 exProgs).run exK exSchedule) 0).map Prod.fst = ["done", "root", "value"] ∧
    (exTexts ((Pool.start (result false exStart).1 exProgs).run exK exSchedule) 1).map Prod.fst = ["value", "removed", "root", "done", "found"] ∧
    (exTexts ((Pool.start (result false exStart).1 exProgs).run exK exSchedule) 2).map Prod.fst = ["proof"] := by decide +kernel

example : ∀ (t : Nat) th prog sf rs, ((Pool.start (result false exStart).1 exProgs).run exK exSchedule).threads[t]? = some th → exProgs[t]? = some prog →
    (result false exStart).1.asks exK prog = .ok (sf, rs) → ¬ Spec.Panicked th ∧ th.returned <+: rs ∧
      (Spec.Finished th → th.returned = rs ∧ th.own.tries = sf.tries ∧ th.own.roots = sf.roots) :=
  (C98_threads_partial exStart_fits (result_eq (by decide +kernel)) exProgs_fits exProgs_alone exSchedule).resolve_left exPool.1

theorem exProgs_noProof : ∀ prog ∈ exProgs.take 2, ∀ a ∈ prog, Spec.NoProofAsk a := by
  intro prog hm a ha
  simp only [exProgs, List.take_succ_cons, List.take_zero, List.mem_cons, List.not_mem_nil, or_false] at hm
  rcases hm with rfl | rfl <;> simp only [List.mem_cons, List.not_mem_nil, or_false] at ha
  · rcases ha with rfl | rfl | rfl <;> simp [Spec.NoProofAsk, Spec.NoProof]
  · rcases ha with rfl | rfl | rfl | rfl | rfl <;> simp [Spec.NoProofAsk, Spec.NoProof]

/-- Two threads, stopped when both are in the middle of their programs. -/
def exPart : List Nat := (List.range 24).map (· % 2)

theorem exPart_noCollision : ¬ Spec.Collision exK ((Pool.start (result false exStart).1 (exProgs.take 2)).run exK exPart).db.log ∧
    (exTexts ((Pool.start (result false exStart).1 (exProgs.take 2)).run exK exPart) 0).map Prod.fst = ["done", "root"] ∧
    (exTexts ((Pool.start (result false exStart).1 (exProgs.take 2)).run exK exPart) 1).map Prod.fst = ["value", "removed"] := by decide +kernel

example : ∀ (t : Nat) th prog, ((Pool.start (result false exStart).1 (exProgs.take 2)).run exK exPart).threads[t]? = some th →
    (exProgs.take 2)[t]? = some prog → ¬ Spec.Panicked th ∧ ∃ sf, (result false exStart).1.asks exK (prog.take th.returned.length) = .ok (sf, th.returned) ∧
      (Spec.Finished th → th.returned.length = prog.length ∧ th.own.tries = sf.tries ∧ th.own.roots = sf.roots) :=
  (C98_no_proof_partial exStart_fits (result_eq (by decide +kernel)) (fun p hp => exProgs_fits p (List.mem_of_mem_take hp)) exProgs_noProof
    exPart).resolve_left exPart_noCollision.1

example (k : Bytes) : ∀ th tr m, ((Pool.start (result false exStart).1 (exProgs.take 2)).run exK exPart).threads[0]? = some th → th.now = none →
    th.own.tries[0]? = some tr → ((exProgs[0].take th.returned.length).foldl Spec.stepAsk (Spec.run exStart)).maps[0]? = some m →
    tr.get ((Pool.start (result false exStart).1 (exProgs.take 2)).run exK exPart).db k = .ok (m k) := by
  intro th tr m h1 h2 h3 h4
  exact (((C98_maps_partial exStart_fits (result_eq (by decide +kernel)) (fun p hp => exProgs_fits p (List.mem_of_mem_take hp)) exProgs_noProof
    exPart).resolve_left exPart_noCollision.1) 0 th exProgs[0] h1 rfl h2).2 0 tr m h3 h4 k

example : ∃ n, Spec.Collision exK ((Pool.start (result false exStart).1 exProgs).after exK (· % 3) n).db.log ∨
    ∃ th, ((Pool.start (result false exStart).1 exProgs).after exK (· % 3) n).threads[1]? = some th ∧ Spec.Finished th ∧
      th.returned = (alone false exProgs[1]).2 ∧ th.own.tries = (alone false exProgs[1]).1.tries :=
  C98_finishes_partial exStart_fits (result_eq (by decide +kernel)) exProgs_fits exProgs_alone rfl (alone_eq (by decide +kernel))
    (fun n => ⟨3 * n + 1, by omega, by show (3 * n + 1) % 3 = 1; omega⟩)

/-! ### Where it is false -/

/-- One thread gives a key another value and commits; the other one reads the key. -/
def raceProgs : List (List Ask) := [[.op (.insert 0 [0x12, 0x34] [7]), .op (.commit 0)], [.get 0 [0x12, 0x34]]]

/-- **C98 is false** of pruning databases: when one thread commits, nodes are deleted that the other threads' tries consist of, and a key that a thread reads
alone can no longer be read. -/
theorem C98_pruning_false : (Sys.new true).run exK exStart = .ok ((result true exStart).1, (result true exStart).2) ∧
    (alone true [.get 0 [0x12, 0x34]]).2.map ansText = [("value", some (long 1))] ∧
    exTexts ((Pool.start (result true exStart).1 raceProgs).run exK (List.replicate 20 0 ++ List.replicate 20 1)) 1 = [("MissingTrieNode", none)] ∧
    ¬ Spec.Collision exK ((Pool.start (result true exStart).1 raceProgs).run exK (List.replicate 20 0 ++ List.replicate 20 1)).db.log :=
  ⟨result_eq (by decide +kernel), by decide +kernel, by decide +kernel, by decide +kernel⟩

/-- The next access of a thread is an insertion. -/
def inserting (p : Pool) (t : Nat) : Bool :=
  match p.threads[t]? with
  | some ⟨_, some (.insert _ _ _), _, _⟩ => true
  | _ => false

/-- **C98 is false** of the methods of `MemoryDB` itself that do not wait for the lock: while a thread that commits holds it, `len` and `is_empty` panic in another
thread, and `values` is empty; before and after that, there are five entries and six. -/
theorem C98_len_false :
    inserting ((Pool.start (result false exStart).1 raceProgs).run exK (List.replicate 6 0)) 0 = true ∧
    ((Pool.start (result false exStart).1 raceProgs).run exK (List.replicate 6 0)).db.lenNow true
      = .error (.panic "called `Option::unwrap()` on a `None` value") ∧
    ((Pool.start (result false exStart).1 raceProgs).run exK (List.replicate 6 0)).db.valuesNow true = 0 ∧
    ((Pool.start (result false exStart).1 raceProgs).run exK (List.replicate 6 0)).db.valuesNow false = 5 ∧
    ((Pool.start (result false exStart).1 raceProgs).run exK (List.replicate 7 0)).db.valuesNow false = 6 :=
  ⟨by decide +kernel, rfl, rfl, by decide +kernel, by decide +kernel⟩

end Verif.Props
