import Verif.Proofs.PmtLight
/-!
Programs over a pruning database that reopen the root of the last commit with `at_root`, side by side with the same program over an archive
database.
-/

set_option autoImplicit false

namespace Verif.Pmt

open PT
open scoped Classical

variable {K : Keccak} {S : Bytes → Prop} {d : Db} {tr : Trie} {m : Spec.Map} {Q : Spec.Map → Prop}

/-- A tree that is stored, with every long part stored for it alone. -/
structure Kept (K : Keccak) (d : Db) (t : PT) (m : Spec.Map) : Prop where
  held : Held K (Has K d) t
  ok : Ok t (2 ^ 60)
  agrees : Agrees t m
  canon : Canon t
  once : ∀ u, below K t u ≤ 1

/-- A trie made by `at_root` that has not been changed. -/
def Opened (K : Keccak) (Q : Spec.Map → Prop) (d : Db) (tr : Trie) (m : Spec.Map) : Prop :=
  ∃ t, tr.root = .hash (K (enc K t)) ∧ tr.passingKeys = [] ∧ tr.cache = [] ∧ Q m ∧ Kept K d t m

/-- A trie that has been changed, or has been opened. -/
def Ready (K : Keccak) (Q : Spec.Map → Prop) (d : Db) (tr : Trie) (m : Spec.Map) : Prop := LightInv K False Q [] d tr m ∨ Opened K Q d tr m

theorem LightInv.weaken {Q' : Spec.Map → Prop} {R R' : List H256} (h : LightInv K False Q R d tr m) (hQ : ∀ m, Q m → Q' m) : LightInv K False Q' R' d tr m := by
  obtain ⟨t, L, h1, h2, h3, h4, h5, h6, h7, h8, h9⟩ := h
  refine ⟨t, L, h1, h2, h3, h4, h5, h6, h7, fun u hu => ?_, False.elim⟩
  obtain ⟨a, b⟩ := h8 u hu
  exact ⟨a.imp_right (fun ⟨m0, h, h'⟩ => ⟨m0, hQ m0 h, h'⟩), b⟩

theorem Ready.get (h : Ready K Q d tr m) (k : Bytes) : tr.get d k = .ok (m k) := by
  rcases h with h | ⟨t, h1, -, -, -, h2⟩
  · exact h.get k
  · unfold Trie.get
    rw [path_eq, h1, getAt_root (reads_has d) h2.ok (.hash h2.held) (hops_ge _), h2.agrees.get]

/-- The first change of an opened trie. -/
theorem Opened.insert (hd : Holed K d) (h : Opened K Q d tr m) {k v : Bytes} (hk : k.length ≤ 2 ^ 59) (hv : v.length < 2 ^ 60) (hne : v ≠ []) :
    ∃ n ks, insertAt d v (hops d (Trie.path k)) tr.root (Trie.path k) = (ks, .ok n) ∧
      LightInv K False Q [] d { tr with root := n, passingKeys := ks ++ tr.passingKeys } (m.set k (some v)) := by
  obtain ⟨t, h1, h2, h3, h4, h5⟩ := h
  rw [path_eq, h1]
  obtain ⟨f, hf⟩ := Nat.exists_eq_add_of_le (Nat.le_trans (Nat.le_add_left 1 _) (hops_ge (db := d) (nibsOf k)))
  rw [Nat.add_comm] at hf
  have hf' := hops_ge (db := d) (nibsOf k)
  obtain ⟨n, L, e, g1, g2⟩ := insertAt_moves (v := v) (reads_has d) h5.ok (top K t) f (nibsOf k) (rep_top h5.held.2) (top_not_hash t) (by omega)
  rw [hf, insertAt_hash, fetch_held (reads_has d) h5.held h5.ok]
  have e' : insertAt d v f (top K t) (leafPath (nibsOf k)) = (L.map (fun s => K (enc K s)), .ok n) := e
  refine ⟨n, (t :: L).map (fun s => K (enc K s)), ?_, t.insert v (nibsOf k), t :: L, g1, ?_, ?_, h5.agrees.insert k v, canon_insert v _ h5.canon, ?_,
    fun u => ?_, fun u hu => ?_, False.elim⟩
  · simp only [Out.andThen, e', List.map_cons, List.singleton_append]
  · exact insertAt_not_hash (top_not_hash t) (by rw [e'])
  · exact ok_insert h5.ok (by rw [nibsOf_length]; omega) ⟨hne, hv⟩
  · simp only [h2, List.append_nil]
  · have a1 := g2 u
    have a2 := h5.once u
    rw [stored_top] at a1
    show stored K (t.insert v (nibsOf k)) n u + _ ≤ 1
    rw [List.count_cons]
    by_cases hu : t = u
    · subst hu
      rw [below_self] at a1
      simp
      omega
    · simp [hu]
      omega
  · rcases List.mem_cons.1 hu with rfl | hu
    · exact ⟨.inr ⟨m, h4, h5.agrees⟩, ⟨hd.inLog _ h5.held.1, h5.held.2.mono hd.inLog⟩, h5.ok⟩
    · obtain ⟨a, b, c⟩ := mem_map_enc (rep_top h5.held.2) h5.ok g2 u hu
      exact ⟨.inl a, ⟨hd.inLog _ b.1, b.2.mono hd.inLog⟩, c⟩

/-- The first change of an opened trie. -/
theorem Opened.remove (hd : Holed K d) (h : Opened K Q d tr m) {k : Bytes} (hk : (m k).isSome)
    (hp : Spec.Smooth m k) :
    ∃ n ks, deleteAt d (hops d (Trie.path k)) tr.root (Trie.path k) = (ks, .ok (n, true)) ∧
      LightInv K False Q [] d { tr with root := n, passingKeys := ks ++ tr.passingKeys } (m.set k none) := by
  obtain ⟨t, h1, h2, h3, h4, h5⟩ := h
  rw [path_eq, h1]
  obtain ⟨f, hf⟩ := Nat.exists_eq_add_of_le (Nat.le_trans (Nat.le_add_left 1 _) (hops_ge (db := d) (nibsOf k)))
  rw [Nat.add_comm] at hf
  have hf' := hops_ge (db := d) (nibsOf k)
  obtain ⟨⟨n, b, r0, e, hd0⟩, hmv⟩ := deleteAt_moves (reads_has d) h5.ok (top K t) f (nibsOf k) (rep_top h5.held.2) (top_not_hash t) (by omega)
  have hb : b = true := by
    cases b with
    | true => rfl
    | false =>
      have e1 := del_false hd0
      have e2 := get_del hd0 (nibsOf k)
      rw [e1, if_pos rfl, h5.agrees.get] at e2
      rw [e2] at hk; cases hk
  subst hb
  obtain ⟨r, L, g1, g2, g3, g4, g5⟩ := hmv n e
  obtain ⟨n', L', k1, k2, k3, k4⟩ := afterDelete_moves (reads_has d) (ok_del g2 h5.ok) g3 g4
  rw [hf, deleteAt_hash, fetch_held (reads_has d) h5.held h5.ok]
  have e' : deleteAt d f (top K t) (leafPath (nibsOf k)) = (L.map (fun s => K (enc K s)), .ok (n, true)) := Prod.ext g1 e
  have g2' := del_deg g2
  have cnt : ∀ u, stored K (deg r) n' u + (L ++ L').count u = stored K t (top K t) u := by
    intro u
    have a1 := g5 u
    have a2 := k4 u
    rw [List.count_append]
    omega
  refine ⟨n', (t :: (L ++ L')).map (fun s => K (enc K s)), ?_, deg r, t :: (L ++ L'), k2, k3, ok_del g2' h5.ok, h5.agrees.del g2',
    canon_del g2' h5.canon (h5.agrees.smooth hp), ?_, fun u => ?_, fun u hu => ?_, False.elim⟩
  · simp only [Out.andThen, e', k1, List.map_cons, List.map_append, List.cons_append, List.nil_append]
  · simp only [h2, List.append_nil]
  · have a1 := cnt u
    have a2 := h5.once u
    rw [stored_top] at a1
    show stored K (deg r) n' u + _ ≤ 1
    rw [List.count_cons]
    by_cases hu : t = u
    · subst hu
      rw [below_self] at a1
      simp only [beq_self_eq_true, if_true]
      omega
    · simp only [beq_iff_eq, hu, if_false]
      omega
  · rcases List.mem_cons.1 hu with rfl | hu
    · exact ⟨.inr ⟨m, h4, h5.agrees⟩, ⟨hd.inLog _ h5.held.1, h5.held.2.mono hd.inLog⟩, h5.ok⟩
    · obtain ⟨a, b, c⟩ := mem_map_enc (rep_top h5.held.2) h5.ok cnt u hu
      exact ⟨.inl a, ⟨hd.inLog _ b.1, b.2.mono hd.inLog⟩, c⟩

theorem Ready.insert (hd : Holed K d) (h : Ready K Q d tr m) {k v : Bytes} (hk : k.length ≤ 2 ^ 59) (hv : v.length < 2 ^ 60) (hne : v ≠ []) :
    ∃ n ks, insertAt d v (hops d (Trie.path k)) tr.root (Trie.path k) = (ks, .ok n) ∧
      LightInv K False Q [] d { tr with root := n, passingKeys := ks ++ tr.passingKeys } (m.set k (some v)) := by
  rcases h with h | h
  · exact h.insert hd hk hv hne
  · exact h.insert hd hk hv hne

theorem Ready.remove (hd : Holed K d) (h : Ready K Q d tr m) {k : Bytes} (hk : (m k).isSome) (hp : Spec.Smooth m k) :
    ∃ n ks, deleteAt d (hops d (Trie.path k)) tr.root (Trie.path k) = (ks, .ok (n, true)) ∧
      LightInv K False Q [] d { tr with root := n, passingKeys := ks ++ tr.passingKeys } (m.set k none) := by
  rcases h with h | h
  · exact h.remove hd hk hp
  · exact h.remove hd hk hp

/-- The map of the last commit, once a trie has been opened. -/
def Base (n : Nat) (snaps : List Spec.Map) (m : Spec.Map) : Prop := 1 < n ∧ snaps.getLast? = some m

/-- A system over a pruning database and one over an archive database with the same tries, of which the last one can be used. -/
structure Relays (K : Keccak) (sl sa : Sys) (σ : Spec.State) : Prop where
  inv : SysInv K True sa σ
  tries : sl.tries = sa.tries
  roots : sl.roots = sa.roots
  log : sl.db.log = sa.db.log
  holed : Holed K sl.db
  one : ∃ i tr m, i + 1 = σ.maps.length ∧ sa.tries[i]? = some tr ∧ σ.maps[i]? = some m ∧ Ready K (Base σ.maps.length σ.snaps) sl.db tr m
  last : ∀ m0, σ.snaps.getLast? = some m0 → ∃ t, sl.roots.getLast? = some (K (enc K t)) ∧ Kept K sl.db t m0

theorem Relays.within {sl sa : Sys} {σ : Spec.State} (h : Relays K sl sa σ) (hnc : NoClash K sa.db.log) : Within sl.db sa.db := by
  intro x b hb
  obtain ⟨h1, h2⟩ := h.holed.sound x b hb
  rw [h.log] at h2
  rw [h1]
  exact h.inv.db.reads hnc b h2

theorem Relays.new : Relays K { Sys.new true with tries := [Trie.new K] } { Sys.new false with tries := [Trie.new K] } ⟨[fun _ => none], []⟩ := by
  have h := Twin.new (K := K) (P := False)
  obtain ⟨tr, m, h1, h2, h3⟩ := h.one
  refine ⟨h.inv, h.tries, h.roots, h.log, h.holed, ⟨0, tr, m, rfl, by rw [h1]; rfl, by rw [h2]; rfl, .inl (h3.weaken fun _ h => h.elim)⟩, fun m0 h0 => by cases h0⟩

theorem Relays.step {sl sa sa' : Sys} {σ : Spec.State} (h : Relays K sl sa σ) {op : Op} {r : Ret} (hop : Spec.Fits op) (hg : Spec.Relay σ op)
    (hs : sa.step K op = .ok (sa', r)) (hnc : NoClash K sa'.db.log) :
    ∃ sl', sl.step K op = .ok (sl', r) ∧ Relays K sl' sa' (Spec.step σ op) := by
  have hnc0 : NoClash K sa.db.log := hnc.subset (Sys.step_log hs)
  have hw := h.within hnc0
  have hplain : Spec.PlainRemoval σ op := by
    cases op with
    | remove i k => exact fun m hm => (hg.2 m hm).2
    | _ => trivial
  have hinv' : SysInv K True sa' (Spec.step σ op) := by
    rcases h.inv.step (op := op) hop (fun _ => hplain) hnc0 with ⟨s', r', e, _, g⟩ | ⟨_, _, _, _, _, _, _, e⟩
    · rw [hs] at e
      cases e
      exact g hnc
    · rw [hs] at e; cases e
  obtain ⟨i0, tr, m, hi0, ht, hm, h3⟩ := h.one
  have hl : sl.tries[i0]? = some tr := by rw [h.tries, ht]
  have hcache : ∀ e ∈ tr.cache, EntryOk K e := (h.inv.tries.2 i0 tr m ht hm).1
  have hlen : i0 < sa.tries.length := (List.getElem?_eq_some_iff.1 ht).1
  have hlenm : i0 < σ.maps.length := by omega
  cases op with
  | new => exact hg.elim
  | openAt j =>
    have hg : j + 1 = σ.snaps.length := hg
    have hj : j < σ.snaps.length := by omega
    have hlast : σ.snaps.getLast? = some σ.snaps[j] := by
      rw [List.getLast?_eq_getElem?, ← hg, Nat.add_sub_cancel, List.getElem?_eq_getElem hj]
    obtain ⟨t, k1, k2⟩ := h.last _ hlast
    have hr : sl.roots[j]? = some (K (enc K t)) := by
      rw [List.getLast?_eq_getElem?, h.roots, h.inv.roots.1, ← hg, Nat.add_sub_cancel] at k1
      rw [h.roots]
      exact k1
    have hr' : sa.roots[j]? = some (K (enc K t)) := by rw [← h.roots]; exact hr
    simp only [Sys.step, hr'] at hs
    simp only [Sys.step, hr]
    cases hs
    have e : Spec.step σ (.openAt j) = { σ with maps := σ.maps ++ [σ.snaps[j]] } := by
      simp only [Spec.step, List.getElem?_eq_getElem hj]
    rw [e] at hinv' ⊢
    have hlt : sa.tries.length = σ.maps.length := h.inv.tries.1
    refine ⟨_, rfl, hinv', by simp only [h.tries], h.roots, h.log, h.holed, ⟨σ.maps.length, Trie.atRoot (K (enc K t)), σ.snaps[j], by simp, ?_, by simp, .inr ?_⟩, h.last⟩
    · simp only
      rw [← hlt, List.getElem?_concat_length]
    · refine ⟨t, rfl, rfl, rfl, ⟨?_, hlast⟩, k2⟩
      rw [List.length_append, List.length_singleton]
      omega
  | insert i k v =>
    obtain rfl : i = i0 := by have : i + 1 = σ.maps.length := hg; omega
    simp only [Sys.step, ht] at hs
    simp only [Sys.step, hl]
    simp only [Sys.insert] at hs ⊢
    by_cases hv : v = []
    · subst hv
      have e : ∀ d, tr.insert d k [] = .ok (tr, some "value provided for key is empty") := fun d => rfl
      rw [e] at hs ⊢
      cases hs
      have e2 : Spec.step σ (.insert i k []) = { σ with maps := σ.maps.set i m } := by
        rw [show Spec.step σ (.insert i k []) = σ.update i (fun m => m) from rfl, getElem?_update hm]
      rw [e2] at hinv' ⊢
      refine ⟨_, rfl, hinv', ?_, h.roots, h.log, h.holed, ⟨i, tr, m, ?_, ?_, ?_, ?_⟩, h.last⟩
      · simp only [Sys.put, h.tries]
      · simp only [List.length_set]; exact hi0
      · simp only [Sys.put, List.getElem?_set, hlen, if_true]
      · simp only [List.getElem?_set, hlenm, if_true]
      · simp only [List.length_set]; exact h3
    · obtain ⟨n, ks, e, g⟩ := h3.insert h.holed hop.1 hop.2 hv
      have e' : insertAt sa.db v (hops sa.db (Trie.path k)) tr.root (Trie.path k) = (ks, .ok n) := by
        obtain ⟨tr', e2, _⟩ := Trie.insert_ok (h.inv.db.reads hnc0) (h.inv.tries.2 i tr m ht hm) hop.1 hop.2 hv
        unfold Trie.insert at e2
        rw [if_neg (by simpa using hv)] at e2
        dsimp only at e2
        rcases hr : insertAt sa.db v (hops sa.db (Trie.path k)) tr.root (Trie.path k) with ⟨ks', e3 | n'⟩
        · rw [hr] at e2
          rcases e3 with e3 | e3 <;> cases e2
        · have := insertAt_same hw.alike v (hops sl.db (Trie.path k)) (hops sa.db (Trie.path k)) tr.root (Trie.path k) n n' (by rw [e]) (by rw [hr])
          rw [← hr, ← this, e]
      have ins : ∀ d, insertAt d v (hops d (Trie.path k)) tr.root (Trie.path k) = (ks, .ok n) →
          tr.insert d k v = .ok ({ tr with root := n, passingKeys := ks ++ tr.passingKeys }, none) := by
        intro d hd
        unfold Trie.insert
        rw [if_neg (by simpa using hv)]
        dsimp only
        rw [hd]
      rw [ins _ e'] at hs
      rw [ins _ e]
      cases hs
      have e2 : Spec.step σ (.insert i k v) = { σ with maps := σ.maps.set i (m.set k (some v)) } := by
        rw [show Spec.step σ (.insert i k v) = σ.update i (fun m => if v = [] then m else m.set k (some v)) from rfl, getElem?_update hm, if_neg hv]
      rw [e2] at hinv' ⊢
      refine ⟨_, rfl, hinv', ?_, h.roots, h.log, h.holed, ⟨i, { tr with root := n, passingKeys := ks ++ tr.passingKeys }, m.set k (some v), ?_, ?_, ?_, .inl ?_⟩, h.last⟩
      · simp only [Sys.put, h.tries]
      · simp only [List.length_set]; exact hi0
      · simp only [Sys.put, List.getElem?_set, hlen, if_true]
      · simp only [List.getElem?_set, hlenm, if_true]
      · simp only [List.length_set]; exact g
  | remove i k =>
    obtain ⟨hg0, hg⟩ := hg
    obtain rfl : i = i0 := by omega
    obtain ⟨hk, hp⟩ := hg m hm
    simp only [Sys.step, ht] at hs
    simp only [Sys.step, hl]
    simp only [Sys.remove] at hs ⊢
    obtain ⟨n, ks, e, g⟩ := h3.remove h.holed hk hp
    have e' : deleteAt sa.db (hops sa.db (Trie.path k)) tr.root (Trie.path k) = (ks, .ok (n, true)) := by
      obtain ⟨tr', b, e2, _⟩ := Trie.remove_ok (h.inv.db.reads hnc0) (h.inv.tries.2 i tr m ht hm) k (fun _ => hp)
      unfold Trie.remove at e2
      dsimp only at e2
      rcases hr : deleteAt sa.db (hops sa.db (Trie.path k)) tr.root (Trie.path k) with ⟨ks', e3 | n'⟩
      · rw [hr] at e2
        rcases e3 with e3 | e3 <;> cases e2
      · have := deleteAt_same hw.alike (hops sl.db (Trie.path k)) (hops sa.db (Trie.path k)) tr.root (Trie.path k) (n, true) n' (by rw [e]) (by rw [hr])
        rw [← hr, ← this, e]
    have rem : ∀ d, deleteAt d (hops d (Trie.path k)) tr.root (Trie.path k) = (ks, .ok (n, true)) →
        tr.remove d k = .ok ({ tr with root := n, passingKeys := ks ++ tr.passingKeys }, .ok true) := by
      intro d hd
      unfold Trie.remove
      dsimp only
      rw [hd]
    rw [rem _ e'] at hs
    rw [rem _ e]
    cases hs
    have e2 : Spec.step σ (.remove i k) = { σ with maps := σ.maps.set i (m.set k none) } := by
      rw [show Spec.step σ (.remove i k) = σ.update i (fun m => m.set k none) from rfl, getElem?_update hm]
    rw [e2] at hinv' ⊢
    refine ⟨_, rfl, hinv', ?_, h.roots, h.log, h.holed, ⟨i, { tr with root := n, passingKeys := ks ++ tr.passingKeys }, m.set k none, ?_, ?_, ?_, .inl ?_⟩, h.last⟩
    · simp only [Sys.put, h.tries]
    · simp only [List.length_set]; exact hi0
    · simp only [Sys.put, List.getElem?_set, hlen, if_true]
    · simp only [List.getElem?_set, hlenm, if_true]
    · simp only [List.length_set]; exact g
  | commit i =>
    obtain ⟨hg0, hg⟩ := hg
    obtain rfl : i = i0 := by omega
    obtain ⟨hdist, hch⟩ := hg m hm
    have e2 : Spec.step σ (.commit i) = { σ with snaps := σ.snaps ++ [m] } := by simp only [Spec.step, hm]
    rw [e2] at hinv' ⊢
    simp only [Sys.step, ht] at hs
    simp only [Sys.step, hl]
    simp only [Sys.commit] at hs ⊢
    rcases h3 with h3 | ⟨t, o1, o2, o3, o4, o5⟩
    · obtain ⟨tr1, t, f1, f2, f3, f4, f5⟩ := Trie.commit_light h.holed h3 hcache hdist (fun hq => by
        rcases hch with h0 | h0 | h0
        · have := hq.1
          omega
        · exact absurd hq.2 h0
        · exact h0) (Base σ.maps.length (σ.snaps ++ [m]))
      have hda := h.inv.db.insertBatch f3
      have hlog : (sl.db.insertBatch tr1.cache).log = (sa.db.insertBatch tr1.cache).log := by
        rw [insertBatch_log_eq, insertBatch_log_eq, h.log]
      have harch := removeBatch_archive hda.archive (tr1.passingKeys.filter (fun k => !(tr1.genKeys.contains k)))
      obtain ⟨c, hcg⟩ := Option.isSome_iff_exists.1 (hda.complete (enc K t) ((insertBatch_log _ _).2 (.inr f4)))
      obtain ⟨s, hs1, hs2⟩ := hda.encs c (hda.sound _ _ hcg).2
      have hrec : recover (sa.db.insertBatch tr1.cache) (K (enc K t)) = .ok (some (top K s)) := by
        have : K (enc K t) = K (enc K s) := by rw [← hs2]; exact (hda.sound _ _ hcg).1
        rw [this]
        exact recover_has hs1 (by unfold Has; rw [← this, hcg, hs2])
      have ea := commit_of (d := sa.db) f1 harch.symm hrec
      rw [ea] at hs
      cases hs
      have hcs : enc K s = enc K t := by
        rw [← hs2]
        exact hnc c (hda.sound _ _ hcg).2 _ ((insertBatch_log _ _).2 (.inr f4)) (hda.sound _ _ hcg).1.symm
      obtain ⟨tr', d', e, k1, k2, k3, k5, k6, -, k4, q4, q5, q7⟩ := f5 (by rw [hlog]; exact hnc)
      rw [e]
      have hroot : tr'.root = top K t := by rw [k1]
      refine ⟨_, rfl, hinv', ?_, ?_, ?_, k3, ⟨i, tr', m, hi0, ?_, hm, .inl (k4.weaken fun _ h => h)⟩, fun m0 hm0 => ?_⟩
      · simp only [h.tries, k1, top_of_enc hs1 f2 hcs]
      · simp only [h.roots]
      · exact k2.trans hlog
      · simp only [k1, top_of_enc hs1 f2 hcs, List.getElem?_set, hlen, if_true]
      · obtain rfl : m = m0 := by simpa using hm0
        exact ⟨t, by simp, ⟨k5, k6⟩, f2, q4, q5, q7⟩
    · have f1 : tr.writeRoot K = .ok (tr, K (enc K t)) := by
        unfold Trie.writeRoot
        rw [o1]
        rcases tr with ⟨a1, a2, a3, a4, a5⟩
        cases o1
        simp [writeNode, Trie.addWritten]
      have hrec : recover sl.db (K (enc K t)) = .ok (some (top K t)) := recover_has o5.ok o5.held.1
      have hrec' : recover sa.db (K (enc K t)) = .ok (some (top K t)) := recover_has o5.ok (hw _ _ o5.held.1)
      have el := commit_of (d := sl.db) (d' := sl.db) f1 (by rw [o2, o3]; rfl) hrec
      have ea := commit_of (d := sa.db) (d' := sa.db) f1 (by rw [o2, o3]; rfl) hrec'
      rw [ea] at hs
      rw [el]
      cases hs
      refine ⟨_, rfl, hinv', ?_, ?_, h.log, h.holed, ⟨i, ⟨top K t, K (enc K t), [], [], []⟩, m, hi0, ?_, hm, .inl ?_⟩, fun m0 hm0 => ?_⟩
      · simp only [h.tries]
      · simp only [h.roots]
      · simp only [List.getElem?_set, hlen, if_true]
      · refine ⟨t, [], rep_top o5.held.2, top_not_hash t, o5.ok, o5.agrees, o5.canon, rfl, fun u => ?_, by simp, False.elim⟩
        have := o5.once u
        rw [stored_top]
        simpa using this
      · obtain rfl : m = m0 := by simpa using hm0
        exact ⟨t, by simp, o5⟩
  | proof i k =>
    obtain ⟨rfl, hone⟩ := hg
    obtain rfl : 0 = i0 := by omega
    have hnr : ¬ IsHash tr.root := by
      rcases h3 with ⟨t, L, _, g, _⟩ | ⟨t, _, _, _, g, _⟩
      · exact g
      · have := g.1
        omega
    simp only [Sys.step, ht] at hs
    simp only [Sys.step, hl]
    simp only [Sys.proof] at hs ⊢
    have h3 : LightInv K False (Base σ.maps.length σ.snaps) [] sl.db tr m := by
      rcases h3 with h3 | ⟨t, _, _, _, g, _⟩
      · exact h3
      · have := g.1
        omega
    have hp : tr.getProof K sl.db k = tr.getProof K sa.db k := by
      obtain ⟨t, L, g1, g2, g3, -⟩ := h3
      obtain ⟨l, e1, -⟩ := pathAt_root (reads_has sl.db) g3 (.node g1) (hops_ge (nibsOf k))
      obtain ⟨-, t', a1, a2, -⟩ := h.inv.tries.2 0 tr m ht hm
      obtain ⟨l', e2, -⟩ := pathAt_root (h.inv.db.reads hnc0) a2 a1 (hops_ge (nibsOf k))
      have := pathAt_same hw.alike _ _ _ _ _ _ e1 e2
      unfold Trie.getProof
      rw [path_eq, e1, e2, this]
    rw [hp]
    rcases hq : tr.getProof K sa.db k with e | ⟨tr', x⟩
    · rw [hq] at hs; cases hs
    · have same : tr'.root = tr.root ∧ tr'.passingKeys = tr.passingKeys := by
        unfold Trie.getProof at hq
        split at hq
        · cases hq
        · cases hq; exact ⟨rfl, rfl⟩
        · dsimp only at hq
          rename_i l _
          obtain ⟨⟨bs, w⟩, hq⟩ := bind_ok hq
          cases hq
          exact ⟨rfl, rfl⟩
      have h3' : LightInv K False (Base σ.maps.length σ.snaps) [] sl.db tr' m := by
        obtain ⟨t, L, g1, g2, g3, g4, g5, g6, g7, g8, -⟩ := h3
        rw [← same.1] at g1 g2 g7
        rw [← same.2] at g6
        exact ⟨t, L, g1, g2, g3, g4, g5, g6, g7, g8, False.elim⟩
      rw [hq] at hs
      rcases x with x | x <;>
        (cases hs; refine ⟨_, rfl, hinv', ?_, h.roots, h.log, h.holed, ⟨0, tr', m, hi0, ?_, hm, .inl h3'⟩, h.last⟩ <;> simp [Sys.put, h.tries, hlen])

/-- Both programs succeed, or after some of the calls there is a collision. -/
theorem Relays.total {sl sa : Sys} {σ : Spec.State} {ops : List Op} (h : Relays K sl sa σ) (hfit : ∀ op ∈ ops, Spec.Fits op)
    (hg : Spec.RelayFrom σ ops) (hnc : NoClash K sa.db.log) :
    (∃ sl' sa' rs, sl.run K ops = .ok (sl', rs) ∧ sa.run K ops = .ok (sa', rs) ∧ Relays K sl' sa' (ops.foldl Spec.step σ) ∧
      Spec.AnswersFrom σ ops rs) ∨
    ∃ pre sa' rs, pre <+: ops ∧ sa.run K pre = .ok (sa', rs) ∧ ¬ NoClash K sa'.db.log := by
  induction ops generalizing sl sa σ with
  | nil => exact .inl ⟨sl, sa, [], rfl, rfl, h, rfl⟩
  | cons op t ih =>
    have hplain : Spec.PlainRemoval σ op := by
      have hg1 := hg.1
      cases op with
      | remove i k => exact fun m hm => (hg1.2 m hm).2
      | _ => trivial
    rcases h.inv.step (op := op) (hfit op (by simp)) (fun _ => hplain) hnc with ⟨sa1, r, e, ha, _⟩ | ⟨i, k, tr, msg, rfl, ht, hh, e⟩
    · by_cases hnc1 : NoClash K sa1.db.log
      · obtain ⟨sl1, e1, g1⟩ := h.step (hfit op (by simp)) hg.1 e hnc1
        rcases ih g1 (fun o ho => hfit o (by simp [ho])) hg.2 hnc1 with ⟨sl', sa', rs, a1, a2, a3, a4⟩ | ⟨pre, sa', rs, b1, b2, b3⟩
        · refine .inl ⟨sl', sa', r :: rs, ?_, ?_, a3, r, rs, rfl, ha, a4⟩
          · unfold Sys.run
            rw [e1]
            simp only [a1]
          · unfold Sys.run
            rw [e]
            simp only [a2]
        · refine .inr ⟨op :: pre, sa', r :: rs, by rw [List.cons_prefix_cons]; exact ⟨rfl, b1⟩, ?_, b3⟩
          unfold Sys.run
          rw [e]
          simp only [b2]
      · refine .inr ⟨[op], sa1, [r], by simp, ?_, hnc1⟩
        simp only [Sys.run, e]
    · obtain ⟨rfl, hone⟩ : i = 0 ∧ σ.maps.length = 1 := hg.1
      obtain ⟨i0, tr', m, h0, h1, h2, h3⟩ := h.one
      obtain rfl : i0 = 0 := by omega
      rw [h1] at ht
      cases ht
      rcases h3 with ⟨t, L, _, g, _⟩ | ⟨t, _, _, _, g, _⟩
      · exact absurd hh g
      · have := g.1
        omega

end Verif.Pmt
