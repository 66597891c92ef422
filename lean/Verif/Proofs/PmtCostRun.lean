import Verif.Proofs.PmtCost
import Verif.Proofs.PmtLight
import Verif.Spec.PmtCost
/-!
The costs of the calls on a trie, and of the commits of a program.
-/

set_option autoImplicit false

namespace Verif.Pmt

open PT

variable {K : Keccak} {S : Bytes → Prop} {db db' : Db} {P : Prop}

theorem recover_under (hs : ∀ h b, db.get h = some b → h = K b ∧ b ∈ db.log) (he : ∀ b ∈ db.log, ∃ s, Ok s (2 ^ 60) ∧ b = enc K s) {h : H256} {n : Node}
    (hn : recover db h = .ok (some n)) : under K n = 0 := by
  unfold recover at hn
  rcases hg : db.get h with _ | b
  · rw [hg] at hn; cases hn
  · rw [hg] at hn
    obtain ⟨s, ho, rfl⟩ := he b (hs h b hg).2
    simp only [decodeNode_enc ho] at hn
    cases hn
    exact under_top ho

theorem fetches_of (hs : ∀ h b, db.get h = some b → h = K b ∧ b ∈ db.log) (he : ∀ b ∈ db.log, ∃ s, Ok s (2 ^ 60) ∧ b = enc K s) : Fetches K db := by
  intro h m hm
  unfold fetch at hm
  rcases hr : recover db h with e | _ | n
  · rw [hr] at hm; cases hm
  · rw [hr] at hm; cases hm
  · rw [hr] at hm
    cases hm
    exact recover_under hs he hr

/-! ### What the calls read -/

theorem hops_nibs (db : Db) (k : Bytes) : 2 * k.length + 1 ≤ hops db (leafPath (nibsOf k)) := by
  have := hops_ge (db := db) (nibsOf k)
  rw [nibsOf_length] at this
  exact this

theorem Trie.get_reads (hR : Reads K S db) {tr : Trie} {t : PT} (hok : Ok t (2 ^ 60)) (h : RepRoot K S tr.root t) (k : Bytes) :
    Spec.ReadsAtMost (2 * k.length + 1) db (fun d => tr.get d k) := by
  obtain ⟨L, h1, h2⟩ := getAt_reads_root (p := nibsOf k) hR hok h
  rw [nibsOf_length] at h1 h2
  refine ⟨L, h1, fun d hd => ?_⟩
  simp only [Trie.get]
  rw [path_eq, h2 d _ hd (hops_nibs d k), h2 db _ (agree_refl L) (hops_nibs db k)]

theorem Trie.contains_reads (hR : Reads K S db) {tr : Trie} {t : PT} (hok : Ok t (2 ^ 60)) (h : RepRoot K S tr.root t) (k : Bytes) :
    Spec.ReadsAtMost (2 * k.length + 1) db (fun d => tr.contains d k) := by
  obtain ⟨L, h1, h2⟩ := Trie.get_reads hR hok h k
  refine ⟨L, h1, fun d hd => ?_⟩
  have := h2 d hd
  simp only [Trie.get] at this
  simp only [Trie.contains, this]

theorem Trie.insert_cost (hR : Reads K S db) (hF : Fetches K db) {tr : Trie} {t : PT} (hok : Ok t (2 ^ 60)) (h : RepRoot K S tr.root t) (k v : Bytes) :
    Spec.ReadsAtMost (2 * k.length + 1) db (fun d => tr.insert d k v) ∧
    ∀ tr' x, tr.insert db k v = .ok (tr', x) → tr'.cache = tr.cache ∧
      (v ≠ [] → under K tr'.root ≤ under K tr.root + (2 * k.length + 4) ∧ tr'.passingKeys.length ≤ tr.passingKeys.length + (2 * k.length + 1)) ∧
      (v = [] → tr' = tr) := by
  by_cases hv : v = []
  · subst hv
    refine ⟨⟨[], Nat.zero_le _, fun d _ => rfl⟩, fun tr' x hx => ?_⟩
    have e : tr.insert db k [] = .ok (tr, some "value provided for key is empty") := rfl
    rw [e] at hx
    cases hx
    exact ⟨rfl, fun h => absurd rfl h, fun _ => rfl⟩
  · obtain ⟨n, e, hr⟩ := insertAt_root (v := v) (fuel := 2 * k.length + 1) hR hok h (p := nibsOf k) (by rw [nibsOf_length])
    have hlen := insertAt_len_ok e
    have hload := insertAt_load hF e
    have key : ∀ d, Agree db d (insertAt db v (2 * k.length + 1) tr.root (leafPath (nibsOf k))).1 →
        insertAt d v (hops d (leafPath (nibsOf k))) tr.root (leafPath (nibsOf k)) = insertAt db v (2 * k.length + 1) tr.root (leafPath (nibsOf k)) :=
      fun d hd => insertAt_agree hd (hops_nibs d k) e (fun x hx => hx)
    have hne : v.isEmpty = false := by simpa using hv
    refine ⟨⟨(insertAt db v (2 * k.length + 1) tr.root (leafPath (nibsOf k))).1, hlen, fun d hd => ?_⟩, fun tr' x hx => ?_⟩
    · simp only [Trie.insert, path_eq, key d hd, key db (agree_refl _)]
    · simp only [Trie.insert, path_eq, key db (agree_refl _), hne, e] at hx
      cases hx
      refine ⟨rfl, fun _ => ⟨?_, ?_⟩, fun h => absurd h hv⟩
      · have h1 := under_le (K := K) n
        rw [leafPath_length, nibsOf_length] at hload
        dsimp only
        omega
      · dsimp only
        rw [List.length_append]
        omega

theorem Trie.remove_cost (hR : Reads K S db) (hF : Fetches K db) {tr : Trie} {t : PT} (hok : Ok t (2 ^ 60)) (h : RepRoot K S tr.root t) (k : Bytes) :
    Spec.ReadsAtMost (6 * k.length + 3) db (fun d => tr.remove d k) ∧
    ∀ tr' x, tr.remove db k = .ok (tr', x) → tr'.cache = tr.cache ∧ under K tr'.root ≤ under K tr.root + (4 * k.length + 2) ∧
      tr'.passingKeys.length ≤ tr.passingKeys.length + (6 * k.length + 3) := by
  obtain ⟨r, m, b, u, h1, h2, h3, -⟩ := deleteAt_cost_root (p := nibsOf k) hR hF hok h
  rw [nibsOf_length] at h1 h2 h3
  refine ⟨⟨r, by omega, fun d hd => ?_⟩, fun tr' x hx => ?_⟩
  · simp only [Trie.remove, path_eq, h2 d _ hd (hops_nibs d k), h2 db _ (agree_refl _) (hops_nibs db k)]
  · simp only [Trie.remove, path_eq, h2 db _ (agree_refl _) (hops_nibs db k)] at hx
    cases hx
    have := under_le (K := K) m
    refine ⟨rfl, ?_, ?_⟩ <;> dsimp only
    · omega
    · rw [List.length_append]; omega

theorem encodeAll_load {l : List Node} {bs : List Bytes} {w : Written} (h : Trie.encodeAll K l = .ok (bs, w)) :
    w.length = (l.map (under K)).sum ∧ bs.length = l.length := by
  induction l generalizing bs w with
  | nil => cases h; exact ⟨rfl, rfl⟩
  | cons n l ih =>
    simp only [Trie.encodeAll] at h
    rcases h1 : encodeRaw K n with e | ⟨b, w1⟩
    · rw [h1] at h; cases h
    · rw [h1] at h
      simp only [Res.ok_bind] at h
      rcases h2 : Trie.encodeAll K l with e | ⟨bs1, w2⟩
      · rw [h2] at h; cases h
      · rw [h2] at h
        cases h
        obtain ⟨g1, g2⟩ := ih h2
        rw [List.length_append, encodeRaw_load h1, g1]
        exact ⟨by simp, by simp [g2]⟩

theorem Trie.proof_cost (hR : Reads K S db) {tr : Trie} {t : PT} (hok : Ok t (2 ^ 60)) (h : RepRoot K S tr.root t) (k : Bytes) :
    Spec.ReadsAtMost (2 * k.length + 1) db (fun d => tr.getProof K d k) ∧
    ∀ tr' x, tr.getProof K db k = .ok (tr', x) → tr'.cache.length ≤ tr.cache.length + under K tr.root ∧ tr'.root = tr.root ∧
      tr'.passingKeys = tr.passingKeys ∧ ∀ l, x = .ok l → l.length ≤ 2 * k.length + 2 := by
  obtain ⟨l, e, hl⟩ := pathAt_root (fuel := 2 * k.length + 1) hR hok h (p := nibsOf k) (by rw [nibsOf_length])
  obtain ⟨L, h1, h2, h3⟩ := pathAt_reads e
  refine ⟨⟨L, h1, fun d hd => ?_⟩, fun tr' x hx => ?_⟩
  · simp only [Trie.getProof, path_eq, h3 d _ hd (hops_nibs d k), h3 db _ (agree_refl _) (hops_nibs db k)]
  · simp only [Trie.getProof, path_eq, h3 db _ (agree_refl _) (hops_nibs db k)] at hx
    have hz : ((l.map (top K)).reverse.map (under K)).sum = 0 := by
      apply List.sum_eq_zero
      intro x hx
      simp only [List.mem_map, List.mem_reverse] at hx
      obtain ⟨n, ⟨s, hs, rfl⟩, rfl⟩ := hx
      exact under_top (hl s hs).2
    have key : ∀ l' : List Node, (l'.map (under K)).sum ≤ under K tr.root ∧ l'.length ≤ 2 * k.length + 2 →
        (Trie.encodeAll K l'.reverse >>= fun r => pure (tr.addWritten r.2, Except.ok r.1)) = Except.ok (tr', x) →
        tr'.cache.length ≤ tr.cache.length + under K tr.root ∧ tr'.root = tr.root ∧ tr'.passingKeys = tr.passingKeys ∧
          ∀ l, x = .ok l → l.length ≤ 2 * k.length + 2 := by
      intro l' ⟨g1, g2⟩ hx
      rcases hw : Trie.encodeAll K l'.reverse with e1 | ⟨bs, w⟩
      · rw [hw] at hx
        cases hx
      · rw [hw] at hx
        cases hx
        obtain ⟨a1, a2⟩ := encodeAll_load hw
        rw [List.map_reverse, List.sum_reverse] at a1
        refine ⟨?_, rfl, rfl, fun l hl => ?_⟩
        · simp only [Trie.addWritten, List.length_append]
          omega
        · cases hl
          rw [a2, List.length_reverse]
          exact g2
    refine key _ ?_ hx
    split
    · rw [hz]; exact ⟨Nat.zero_le _, by omega⟩
    · rw [List.map_append, List.sum_append, hz, List.length_append, List.length_singleton]
      exact ⟨by simp, by omega⟩

theorem Trie.writeRoot_len {tr tr' : Trie} {x : H256} (h : tr.writeRoot K = .ok (tr', x)) :
    tr'.cache.length ≤ tr.cache.length + under K tr.root + 1 ∧ tr'.passingKeys = tr.passingKeys := by
  unfold Trie.writeRoot at h
  rcases hw : writeNode K tr.root with e | ⟨e, w⟩
  · rw [hw] at h; cases h
  · rw [hw] at h
    simp only [Res.ok_bind] at h
    have hl := writeNode_load hw
    cases e with
    | hash y =>
      cases h
      have := load_le (K := K) tr.root
      refine ⟨?_, rfl⟩
      simp only [Trie.addWritten, List.length_append]
      omega
    | inline d =>
      cases h
      have hn : ¬ IsHash tr.root := by
        intro hh
        generalize tr.root = n at *
        cases n with
        | hash => cases hw
        | _ => exact hh.elim
      have : w.length = under K tr.root := by
        rw [writeNode_eq _ hn] at hw
        rcases hr : encodeRaw K tr.root with e1 | ⟨b, w1⟩
        · rw [hr] at hw; cases hw
        · rw [hr] at hw
          have hw := Except.ok.inj hw
          unfold writeData at hw
          split at hw
          · cases hw; exact encodeRaw_load hr
          · cases hw
      refine ⟨?_, rfl⟩
      simp only [Trie.addWritten, List.length_append, List.length_singleton]
      omega

theorem Trie.commit_cost {tr tr' : Trie} {x : Except String H256} (h : tr.commit K db = .ok (tr', db', x)) :
    tr'.cache = [] ∧ tr'.passingKeys = [] ∧ (∀ y, x = .ok y → recover db' y = .ok (some tr'.root)) ∧ ∃ (batch : List (H256 × Bytes)) (gone : List H256),
      db' = (db.insertBatch batch).removeBatch gone ∧ batch.length ≤ tr.cache.length + under K tr.root + 1 ∧ gone.length ≤ tr.passingKeys.length := by
  unfold Trie.commit at h
  rcases hw : tr.writeRoot K with e | ⟨tr1, y⟩
  · rw [hw] at h; cases h
  · rw [hw] at h
    simp only [Res.ok_bind] at h
    obtain ⟨h1, h2⟩ := Trie.writeRoot_len hw
    have h3 : (tr1.passingKeys.filter (fun k => !(tr1.genKeys.contains k))).length ≤ tr.passingKeys.length := by
      rw [← h2]; exact List.length_filter_le _ _
    split at h
    · cases h
    · cases h
      exact ⟨rfl, rfl, (fun y hy => by cases hy), _, _, rfl, h1, h3⟩
    · cases h
    · next e =>
      cases h
      exact ⟨rfl, rfl, (fun y hy => by cases hy; exact e), _, _, rfl, h1, h3⟩

/-! ### Programs -/

/-- A trie is within its meter. -/
def Metered (K : Keccak) (tr : Trie) (μ : Spec.Meter) : Prop :=
  under K tr.root ≤ μ.changed ∧ tr.cache.length ≤ μ.kept ∧ tr.passingKeys.length ≤ μ.passed

theorem metered_new (μ : Spec.Meter) : Metered K (Trie.new K) μ := ⟨Nat.zero_le _, Nat.zero_le _, Nat.zero_le _⟩

theorem metered_atRoot (h : H256) (μ : Spec.Meter) : Metered K (Trie.atRoot h) μ := ⟨Nat.zero_le _, Nat.zero_le _, Nat.zero_le _⟩

/-- The tries of a system are within their meters. -/
def AllMetered (K : Keccak) (s : Sys) (μ : Nat → Spec.Meter) : Prop := ∀ (i : Nat) tr, s.tries[i]? = some tr → Metered K tr (μ i)

theorem AllMetered.append {s : Sys} {μ : Nat → Spec.Meter} (h : AllMetered K s μ) {tr : Trie} (ht : ∀ μ, Metered K tr μ) :
    AllMetered K { s with tries := s.tries ++ [tr] } μ := by
  intro i x hx
  rw [List.getElem?_append] at hx
  split at hx
  · exact h i x hx
  · rw [List.getElem?_singleton] at hx
    split at hx
    · cases hx; exact ht _
    · cases hx

theorem AllMetered.set {l : List Trie} {μ μ' : Nat → Spec.Meter} {j : Nat} {tr : Trie} (h : ∀ (i : Nat) tr, l[i]? = some tr → Metered K tr (μ i))
    (hj : Metered K tr (μ' j)) (ho : ∀ i, i ≠ j → μ' i = μ i) (i : Nat) (x : Trie) (hx : (l.set j tr)[i]? = some x) : Metered K x (μ' i) := by
  rw [List.getElem?_set] at hx
  split at hx
  · next e =>
    split at hx
    · cases hx; rw [← e]; exact hj
    · cases hx
  · next e => rw [ho i (fun h => e h.symm)]; exact h i x hx

theorem AllMetered.step {s s' : Sys} {σ : Spec.State} (hs : SysInv K P s σ) {μ : Nat → Spec.Meter} (h : AllMetered K s μ) {op : Op} {r : Ret}
    (hnc : NoClash K s.db.log) (hs' : SysInv K P s' (Spec.step σ op)) (hstep : s.step K op = .ok (s', r)) :
    AllMetered K s' (fun i => (μ i).step i op) := by
  have hR := hs.db.reads hnc
  have hF : Fetches K s.db := fetches_of hs.db.sound hs.db.encs
  cases op with
  | new => cases hstep; exact h.append metered_new
  | openAt j =>
    simp only [Sys.step] at hstep
    split at hstep
    · cases hstep; exact h
    · cases hstep; exact h.append (metered_atRoot _)
  | insert j k v =>
    simp only [Sys.step] at hstep
    rcases hj : s.tries[j]? with _ | tr
    · rw [hj] at hstep
      cases hstep
      intro i tr hi
      have hij : ¬ j = i := fun e => by subst e; rw [hj] at hi; cases hi
      simp only [Spec.Meter.step, hij, false_and, if_false]
      exact h i tr hi
    · rw [hj] at hstep
      obtain ⟨m, hm, h0, t, h1, h2, -⟩ := hs.tries.some hj
      have hc := (Trie.insert_cost hR hF h2 h1 k v).2
      have hme := h j tr hj
      have key : ∀ tr' x, tr.insert s.db k v = .ok (tr', x) → Metered K tr' ((μ j).step j (.insert j k v)) := by
        intro tr' x e
        obtain ⟨c1, c2, c3⟩ := hc tr' x e
        by_cases hv : v = []
        · rw [c3 hv]
          simp only [Spec.Meter.step, hv, ne_eq, not_true, and_false, if_false]
          exact hme
        · obtain ⟨c4, c5⟩ := c2 hv
          obtain ⟨a1, a2, a3⟩ := hme
          simp only [Spec.Meter.step, hv, ne_eq, not_false_eq_true, and_true, if_true]
          exact ⟨by dsimp only; omega, by rw [c1]; exact a2, by dsimp only; omega⟩
      have other : ∀ i, i ≠ j → (μ i).step i (.insert j k v) = μ i := by
        intro i hi
        have : ¬ j = i := fun e => hi e.symm
        simp only [Spec.Meter.step, this, false_and, if_false]
      simp only [Sys.insert] at hstep
      split at hstep
      · cases hstep
      · next e => cases hstep; exact AllMetered.set h (key _ _ e) other
      · next e => cases hstep; exact AllMetered.set h (key _ _ e) other
  | remove j k =>
    simp only [Sys.step] at hstep
    rcases hj : s.tries[j]? with _ | tr
    · rw [hj] at hstep
      cases hstep
      intro i tr hi
      have hij : ¬ j = i := fun e => by subst e; rw [hj] at hi; cases hi
      simp only [Spec.Meter.step, hij, if_false]
      exact h i tr hi
    · rw [hj] at hstep
      obtain ⟨m, hm, h0, t, h1, h2, -⟩ := hs.tries.some hj
      have hc := (Trie.remove_cost hR hF h2 h1 k).2
      have hme := h j tr hj
      have key : ∀ tr' x, tr.remove s.db k = .ok (tr', x) → Metered K tr' ((μ j).step j (.remove j k)) := by
        intro tr' x e
        obtain ⟨c1, c2, c3⟩ := hc tr' x e
        obtain ⟨a1, a2, a3⟩ := hme
        simp only [Spec.Meter.step, if_true]
        exact ⟨by dsimp only; omega, by rw [c1]; exact a2, by dsimp only; omega⟩
      have other : ∀ i, i ≠ j → (μ i).step i (.remove j k) = μ i := by
        intro i hi
        have : ¬ j = i := fun e => hi e.symm
        simp only [Spec.Meter.step, this, if_false]
      simp only [Sys.remove] at hstep
      split at hstep
      · cases hstep
      · next e => cases hstep; exact AllMetered.set h (key _ _ e) other
      · next e => cases hstep; exact AllMetered.set h (key _ _ e) other
  | commit j =>
    simp only [Sys.step] at hstep
    have other : ∀ i, i ≠ j → (μ i).step i (.commit j) = μ i := by
      intro i hi
      have : ¬ j = i := fun e => hi e.symm
      simp only [Spec.Meter.step, this, if_false]
    rcases hj : s.tries[j]? with _ | tr
    · rw [hj] at hstep
      cases hstep
      intro i tr hi
      have hij : i ≠ j := fun e => by subst e; rw [hj] at hi; cases hi
      show Metered K tr ((μ i).step i (.commit j))
      rw [other i hij]
      exact h i tr hi
    · rw [hj] at hstep
      obtain ⟨m, hm, hinv⟩ := hs.tries.some hj
      obtain ⟨tr', d', t, e, -⟩ := Trie.commit_ok hs.db hinv
      simp only [Sys.commit, e] at hstep
      cases hstep
      obtain ⟨c1, c2, c3, -⟩ := Trie.commit_cost e
      refine AllMetered.set h ?_ other
      refine ⟨?_, by rw [c1]; exact Nat.zero_le _, by rw [c2]; exact Nat.zero_le _⟩
      rw [recover_under hs'.db.sound hs'.db.encs (c3 _ rfl)]
      exact Nat.zero_le _
  | proof j k =>
    simp only [Sys.step] at hstep
    rcases hj : s.tries[j]? with _ | tr
    · rw [hj] at hstep
      cases hstep
      intro i tr hi
      have hij : ¬ j = i := fun e => by subst e; rw [hj] at hi; cases hi
      simp only [Spec.Meter.step, hij, if_false]
      exact h i tr hi
    · rw [hj] at hstep
      obtain ⟨m, hm, h0, t, h1, h2, -⟩ := hs.tries.some hj
      have hc := (Trie.proof_cost hR h2 h1 k).2
      have hme := h j tr hj
      have key : ∀ tr' x, tr.getProof K s.db k = .ok (tr', x) → Metered K tr' ((μ j).step j (.proof j k)) := by
        intro tr' x e
        obtain ⟨c1, c2, c3, -⟩ := hc tr' x e
        obtain ⟨a1, a2, a3⟩ := hme
        simp only [Spec.Meter.step, if_true]
        exact ⟨by rw [c2]; exact a1, by dsimp only; omega, by rw [c3]; exact a3⟩
      have other : ∀ i, i ≠ j → (μ i).step i (.proof j k) = μ i := by
        intro i hi
        have : ¬ j = i := fun e => hi e.symm
        simp only [Spec.Meter.step, this, if_false]
      simp only [Sys.proof] at hstep
      split at hstep
      · cases hstep
      · next e => cases hstep; exact AllMetered.set h (key _ _ e) other
      · next e => cases hstep; exact AllMetered.set h (key _ _ e) other

theorem AllMetered.run {s s' : Sys} {σ : Spec.State} (hs : SysInv K P s σ) {ops : List Op} {rs : List Ret} {μ : Nat → Spec.Meter} (h : AllMetered K s μ)
    (hfit : ∀ op ∈ ops, Spec.Fits op) (hP : P → Spec.PlainFrom σ ops) (hrun : s.run K ops = .ok (s', rs)) (hnc : NoClash K s'.db.log) :
    AllMetered K s' (fun i => ops.foldl (Spec.Meter.step i) (μ i)) := by
  induction ops generalizing s σ rs μ with
  | nil => cases hrun; exact h
  | cons op t ih =>
    obtain ⟨s1, r, rs', h1, h2, _⟩ := Sys.run_cons hrun
    have hnc1 : NoClash K s1.db.log := hnc.subset (Sys.run_log h2)
    have hnc0 : NoClash K s.db.log := hnc1.subset (Sys.step_log h1)
    have g1 : SysInv K P s1 (Spec.step σ op) := hs.run (ops := [op]) (rs := [r]) (by intro o ho; simp only [List.mem_singleton] at ho; subst ho; exact hfit _ (by simp))
      (fun p => ⟨(hP p).1, trivial⟩) (by simp only [Sys.run, h1]) hnc1
    exact ih g1 (h.step hs hnc0 g1 h1) (fun o ho => hfit o (by simp [ho])) (fun p => (hP p).2) h2

theorem metered_none : AllMetered K (Sys.new false) (fun _ => .zero) := by
  intro i tr hi
  simp [Sys.new] at hi

end Verif.Pmt
