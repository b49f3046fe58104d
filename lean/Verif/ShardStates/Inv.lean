import Verif.ShardStates.Model
import Mathlib.Tactic.ByContra

namespace Tycho.ShardStates

/-- consecutive blocks after `p` up to `b` -/
def Path (env : Env) : Id → List Id → Id → Prop
  | p, [], b => p = b
  | p, x :: l, b => 0 < x.seqno ∧ env.prev x = p ∧ Path env x l b

/-- The state of the pivot is stored and stays for now, and the cells of the state are there. -/
structure Good (env : Env) (s : St) (r : Res) : Prop where
  shard : r.pivot.shard = r.id.shard
  le : r.pivot.seqno ≤ r.id.seqno
  direct : s.direct r.pivot = true
  todo : r.pivot ∉ s.todo
  cells : ∀ c ∈ env.cells r.id, c ∈ r.news ∨ c ∈ env.cells r.pivot

theorem Good.frame {env : Env} {s s' : St} {r : Res} (h : Good env s r) (hd : s.direct r.pivot = true → s'.direct r.pivot = true)
    (ht : ∀ x ∈ s'.todo, x ∈ s.todo) : Good env s' r :=
  ⟨h.shard, h.le, hd h.direct, fun hm => h.todo (ht _ hm), h.cells⟩

theorem good_canApply {env : Env} (ok : env.Ok) {s : St} {r : Res} (h : Good env s r) {x : Id} (hx : 0 < x.seqno) (hp : env.prev x = r.id) :
    canApply env s r x := by
  intro c hc
  rcases ok.update x hx c hc with h1 | h1
  · rw [hp] at h1
    rcases h.cells c h1 with h2 | h2
    · exact .inr (.inl h2)
    · exact .inr (.inr ⟨_, h.direct, h2⟩)
  · exact .inl h1

theorem good_next {env : Env} (ok : env.Ok) {s : St} {r : Res} (h : Good env s r) {x : Id} (hx : 0 < x.seqno) (hp : env.prev x = r.id) :
    Good env s (r.next env x) := by
  have h1 := ok.prev_shard x hx
  have h2 := ok.prev_seqno x hx
  rw [hp] at h1 h2
  refine ⟨h.shard.trans h1, Nat.le_trans h.le (by show r.id.seqno ≤ x.seqno; omega), h.direct, h.todo, fun c hc => ?_⟩
  show c ∈ r.news ++ env.new x ∨ c ∈ env.cells r.pivot
  rw [List.mem_append]
  rcases ok.update x hx c hc with h3 | h3
  · rw [hp] at h3
    rcases h.cells c h3 with h4 | h4
    · exact .inl (.inl h4)
    · exact .inr h4
  · exact .inl (.inr h3)

theorem good_fold {env : Env} (ok : env.Ok) {s : St} (l : List Id) {r : Res} (h : Good env s r) {b : Id} (hp : Path env r.id l b) :
    Good env s (l.foldl (Res.next env) r) ∧ (l.foldl (Res.next env) r).id = b := by
  induction l generalizing r with
  | nil => exact ⟨h, hp⟩
  | cons x l ih => exact ih (good_next ok h hp.1 hp.2.1) hp.2.2

theorem good_self (env : Env) {s : St} {p : Id} (hd : s.direct p = true) (ht : p ∉ s.todo) : Good env s ⟨p, p, []⟩ :=
  ⟨rfl, Nat.le_refl _, hd, ht, fun _ hc => .inr hc⟩

theorem anc_seqno {env : Env} (ok : env.Ok) (k : Nat) (x : Id) (h : k ≤ x.seqno) :
    (anc env k x).seqno + k = x.seqno ∧ (anc env k x).shard = x.shard := by
  induction k generalizing x with
  | zero => exact ⟨rfl, rfl⟩
  | succ k ih =>
    have h1 := ok.prev_seqno x (by omega)
    have h2 := ok.prev_shard x (by omega)
    obtain ⟨h3, h4⟩ := ih (env.prev x) (by omega)
    exact ⟨by show (anc env k (env.prev x)).seqno + (k + 1) = _; omega, h4.trans h2⟩

theorem above_ge {env : Env} (ok : env.Ok) {s : St} {x : Id} (h : s.above env x) : (s.base x.shard).seqno ≤ x.seqno := by
  obtain ⟨k, hk, he⟩ := h
  rw [← he]
  have := (anc_seqno ok k x hk).1
  omega

theorem above_prev {env : Env} (ok : env.Ok) {s : St} {x : Id} (h : s.above env x) (hn : x ≠ s.base x.shard) :
    0 < x.seqno ∧ s.above env (env.prev x) := by
  obtain ⟨k, hk, he⟩ := h
  cases k with
  | zero => exact absurd he hn
  | succ k =>
    have h0 : 0 < x.seqno := by omega
    have h1 := ok.prev_seqno x h0
    refine ⟨h0, k, by omega, ?_⟩
    rw [ok.prev_shard x h0]
    exact he

structure Inv (env : Env) (s : St) : Prop where
  base : ∀ sh ∈ env.shards, s.direct (s.base sh) = true ∧ (s.base sh).shard = sh
  todo : ∀ x ∈ s.todo, x.seqno ≠ 0 ∧ x.seqno < (s.base x.shard).seqno
  mem : ∀ x, s.stored x = true → x.shard ∈ env.shards
  chain : ∀ x, s.stored x = true → s.direct x = true ∨ x.seqno < (s.base x.shard).seqno ∨
    (x.seqno % env.stepOf x.shard ≠ 0 ∧ s.stored (env.prev x) = true)
  live : ∀ r, s.live r → Good env s r
  cacheTask : ∀ b it, s.cache b = some it → ∃ k, s.tasks it.task = some k ∧ k.id = b ∧ k.virt = it.virt
  cacheRes : ∀ b it r, s.cache b = some it → it.state = .stored r → r.id = b ∧ s.stored b = true
  taskId : ∀ t k, s.tasks t = some k → 0 < k.id.seqno ∧ k.id.shard ∈ env.shards ∧ (k.virt = true → k.id.seqno % env.stepOf k.id.shard ≠ 0)
  taskRes : ∀ t k r, s.tasks t = some k → k.result = some (some r) → r.id = k.id ∧ s.stored k.id = true
  srcDone : ∀ t k r, s.tasks t = some k → k.src = .done r → r.id = env.prev k.id ∧ s.stored (env.prev k.id) = true
  srcTask : ∀ t k u, s.tasks t = some k → k.src = .task u → ∃ k', s.tasks u = some k' ∧ k'.id = env.prev k.id
  srcStorage : ∀ t k, s.tasks t = some k → k.src = .storage → s.stored (env.prev k.id) = true
  written : ∀ t k, s.tasks t = some k → k.written = true → k.virt = false

theorem inv_start {env : Env} {s : St} (h : Start env s) : Inv env s := by
  have hl : ∀ r, ¬ s.live r := by
    rintro r (⟨b, it, h1, _⟩ | ⟨t, k, h1, _⟩ | ⟨t, k, h1, _⟩ | ⟨t, k, h1, _⟩ | h1)
    · rw [h.cache] at h1; cases h1
    · rw [h.tasks] at h1; cases h1
    · rw [h.tasks] at h1; cases h1
    · rw [h.tasks] at h1; cases h1
    · rw [h.held] at h1; cases h1
  refine ⟨h.base, ?_, ?_, ?_, fun r hr => absurd hr (hl r), ?_, ?_, ?_, ?_, ?_, ?_, ?_, ?_⟩
  · rw [h.todo]; intro x hx; cases hx
  · intro x hx
    rw [h.stored, h.direct] at hx
    obtain ⟨sh, h1, rfl⟩ := hx
    rw [(h.base sh h1).2]; exact h1
  · intro x hx; rw [h.stored] at hx; exact .inl hx
  · intro b it hb; rw [h.cache] at hb; cases hb
  · intro b it r hb; rw [h.cache] at hb; cases hb
  · intro t k ht; rw [h.tasks] at ht; cases ht
  · intro t k r ht; rw [h.tasks] at ht; cases ht
  · intro t k r ht; rw [h.tasks] at ht; cases ht
  · intro t k r ht; rw [h.tasks] at ht; cases ht
  · intro t k ht; rw [h.tasks] at ht; cases ht
  · intro t k ht; rw [h.tasks] at ht; cases ht

/-- Only handles changed. -/
theorem inv_handles {env : Env} {s s' : St} (hi : Inv env s) (h1 : s'.direct = s.direct) (h2 : s'.cache = s.cache) (h3 : s'.tasks = s.tasks)
    (h4 : s'.held = s.held) (h5 : s'.todo = s.todo) (h6 : s'.stored = s.stored) (h7 : s'.base = s.base) : Inv env s' := by
  have hl : ∀ r, s'.live r → s.live r := by
    intro r hr; unfold St.live at hr ⊢; rw [h2, h3, h4] at hr; exact hr
  refine ⟨by rw [h1, h7]; exact hi.base, by rw [h5, h7]; exact hi.todo, by rw [h6]; exact hi.mem, by rw [h1, h6, h7]; exact hi.chain,
    fun r hr => (hi.live r (hl r hr)).frame (by rw [h1]; exact id) (by rw [h5]; exact fun x hx => hx), by rw [h2, h3]; exact hi.cacheTask,
    by rw [h2, h6]; exact hi.cacheRes, by rw [h3]; exact hi.taskId, by rw [h3, h6]; exact hi.taskRes, by rw [h3, h6]; exact hi.srcDone,
    by rw [h3]; exact hi.srcTask, by rw [h3, h6]; exact hi.srcStorage, by rw [h3]; exact hi.written⟩

theorem inv_begin {env : Env} {s : St} (hi : Inv env s) (b : Id) (direct exact : Bool) (t : Nat) (ht : s.tasks t = none) (hb : 0 < b.seqno)
    (hsh : b.shard ∈ env.shards) (hp : s.stored (env.prev b) = true ∨ s.cache (env.prev b) ≠ none)
    (hd : b.seqno % env.stepOf b.shard = 0 → direct = true) : Inv env (s.begin env b direct exact t) := by
  unfold St.begin
  split
  · exact hi
  · split
    · exact hi
    · split
      · exact hi
      · rename_i hc
        generalize hsrc : (if (direct && exact) = true then Src.exact else s.prevSrc env b) = src
        have src_done : ∀ r, src = .done r → ∃ it, s.cache (env.prev b) = some it ∧ it.state = .stored r := by
          intro r hr
          rw [← hsrc] at hr
          split at hr
          · cases hr
          · unfold St.prevSrc at hr
            split at hr
            · cases hr
            · rename_i it hit
              split at hr
              · cases hr
              · rename_i r' hs; cases hr; exact ⟨it, hit, hs⟩
              · cases hr
        have src_task : ∀ u, src = .task u → ∃ it, s.cache (env.prev b) = some it ∧ it.task = u := by
          intro r hr
          rw [← hsrc] at hr
          split at hr
          · cases hr
          · unfold St.prevSrc at hr
            split at hr
            · cases hr
            · rename_i it hit
              split at hr
              · cases hr; exact ⟨it, hit, rfl⟩
              · cases hr
              · cases hr
        have src_storage : src = .storage → s.cache (env.prev b) = none := by
          intro hr
          rw [← hsrc] at hr
          split at hr
          · cases hr
          · unfold St.prevSrc at hr
            split at hr
            · assumption
            · split at hr <;> cases hr
        have tk : ∀ u k, (if u = t then some (⟨b, !direct, src, false, none⟩ : Task) else s.tasks u) = some k →
            (u = t ∧ k = ⟨b, !direct, src, false, none⟩) ∨ (u ≠ t ∧ s.tasks u = some k) := by
          intro u k hk
          split at hk
          · cases hk; left; exact ⟨‹_›, rfl⟩
          · right; exact ⟨‹_›, hk⟩
        have keep : ∀ u k, s.tasks u = some k → (if u = t then some (⟨b, !direct, src, false, none⟩ : Task) else s.tasks u) = some k := by
          intro u k hk
          rw [if_neg]; exact hk
          rintro rfl; rw [ht] at hk; cases hk
        have hl : ∀ r, St.live ((s.putTask t (some ⟨b, !direct, src, false, none⟩)).putCache b (some ⟨t, !direct, .pending⟩)) r → s.live r := by
          rintro r (⟨c, it, h1, h2⟩ | ⟨u, k, h1, h2⟩ | ⟨u, k, h1, h2⟩ | ⟨u, k, h1, h2, h3⟩ | h1)
          · simp only [St.putCache, St.putTask] at h1
            split at h1
            · cases h1; cases h2
            · exact .inl ⟨c, it, h1, h2⟩
          · rcases tk u k h1 with ⟨_, rfl⟩ | ⟨_, h3⟩
            · cases h2
            · exact .inr (.inl ⟨u, k, h3, h2⟩)
          · rcases tk u k h1 with ⟨_, rfl⟩ | ⟨_, h3⟩
            · obtain ⟨it, h4, h5⟩ := src_done r h2
              exact .inl ⟨_, it, h4, h5⟩
            · exact .inr (.inr (.inl ⟨u, k, h3, h2⟩))
          · rcases tk u k h1 with ⟨_, rfl⟩ | ⟨_, h4⟩
            · cases h2
            · exact .inr (.inr (.inr (.inl ⟨u, k, h4, h2, h3⟩)))
          · exact .inr (.inr (.inr (.inr h1)))
        refine ⟨hi.base, hi.todo, hi.mem, hi.chain, fun r hr => (hi.live r (hl r hr)).frame id (fun x hx => hx), ?_, ?_, ?_, ?_, ?_, ?_, ?_, ?_⟩
        · intro c it h1
          simp only [St.putCache, St.putTask] at h1 ⊢
          split at h1
          · rename_i e; subst e
            cases h1; exact ⟨_, if_pos rfl, rfl, rfl⟩
          · obtain ⟨k, h2, h3⟩ := hi.cacheTask c it h1
            exact ⟨k, keep _ _ h2, h3⟩
        · intro c it r h1 h2
          simp only [St.putCache, St.putTask] at h1 ⊢
          split at h1
          · cases h1; cases h2
          · exact hi.cacheRes c it r h1 h2
        · intro u k h1
          rcases tk u k h1 with ⟨_, rfl⟩ | ⟨_, h3⟩
          · refine ⟨hb, hsh, ?_⟩
            intro hv hz
            rw [hd hz] at hv; cases hv
          · exact hi.taskId u k h3
        · intro u k r h1 h2
          rcases tk u k h1 with ⟨_, rfl⟩ | ⟨_, h3⟩
          · cases h2
          · exact hi.taskRes u k r h3 h2
        · intro u k r h1 h2
          rcases tk u k h1 with ⟨_, rfl⟩ | ⟨_, h3⟩
          · obtain ⟨it, h4, h5⟩ := src_done r h2
            exact hi.cacheRes _ it r h4 h5
          · exact hi.srcDone u k r h3 h2
        · intro u k v h1 h2
          rcases tk u k h1 with ⟨_, rfl⟩ | ⟨_, h3⟩
          · obtain ⟨it, h4, h5⟩ := src_task v h2
            obtain ⟨k', h6, h7, _⟩ := hi.cacheTask _ it h4
            rw [h5] at h6
            exact ⟨k', keep _ _ h6, h7⟩
          · obtain ⟨k', h6, h7⟩ := hi.srcTask u k v h3 h2
            exact ⟨k', keep _ _ h6, h7⟩
        · intro u k h1 h2
          rcases tk u k h1 with ⟨_, rfl⟩ | ⟨_, h3⟩
          · rcases hp with h4 | h4
            · exact h4
            · exact absurd (src_storage h2) h4
          · exact hi.srcStorage u k h3 h2
        · intro u k h1 h2
          rcases tk u k h1 with ⟨_, rfl⟩ | ⟨_, h3⟩
          · cases h2
          · exact hi.written u k h3 h2

/-- A task changes but not its block and source; states may be added. -/
theorem inv_task {env : Env} {s s' : St} (hi : Inv env s) (t : Nat) (k k' : Task) (hk : s.tasks t = some k)
    (htk : ∀ u, s'.tasks u = if u = t then some k' else s.tasks u) (hid : k'.id = k.id) (hv : k'.virt = k.virt) (hsrc : k'.src = k.src)
    (hc : s'.cache = s.cache) (hh : s'.held = s.held) (ht : s'.todo = s.todo) (hb : s'.base = s.base)
    (hd : ∀ x, s.direct x = true → s'.direct x = true) (hst : ∀ x, s'.stored x = true ↔ s.stored x = true ∨ (x = k.id ∧ s'.stored k.id = true))
    (hchain : s'.stored k.id = true → s'.direct k.id = true ∨ k.id.seqno < (s.base k.id.shard).seqno ∨
      (k.id.seqno % env.stepOf k.id.shard ≠ 0 ∧ s.stored (env.prev k.id) = true))
    (hres : ∀ r, k'.result = some (some r) → r.id = k.id ∧ s'.stored k.id = true ∧ Good env s' r)
    (hw : k'.written = true → k.virt = false ∧ Good env s' ⟨k.id, k.id, []⟩) : Inv env s' := by
  have tk : ∀ u j, s'.tasks u = some j → (u = t ∧ j = k') ∨ (u ≠ t ∧ s.tasks u = some j) := by
    intro u j h1
    rw [htk] at h1
    split at h1
    · cases h1; exact .inl ⟨‹_›, rfl⟩
    · exact .inr ⟨‹_›, h1⟩
  have hmono : ∀ x, s.stored x = true → s'.stored x = true := fun x hx => (hst x).2 (.inl hx)
  have fr : ∀ r, Good env s r → Good env s' r := fun r hr => hr.frame (hd _) (by rw [ht]; exact fun x hx => hx)
  refine ⟨?_, by rw [ht, hb]; exact hi.todo, ?_, ?_, ?_, ?_, ?_, ?_, ?_, ?_, ?_, ?_, ?_⟩
  · intro sh hsh; rw [hb]; exact ⟨hd _ (hi.base sh hsh).1, (hi.base sh hsh).2⟩
  · intro x hx
    rcases (hst x).1 hx with h1 | ⟨rfl, _⟩
    · exact hi.mem x h1
    · exact (hi.taskId t k hk).2.1
  · intro x hx
    rw [hb]
    rcases (hst x).1 hx with h1 | ⟨rfl, h1⟩
    · rcases hi.chain x h1 with h2 | h2 | ⟨h2, h3⟩
      · exact .inl (hd _ h2)
      · exact .inr (.inl h2)
      · exact .inr (.inr ⟨h2, hmono _ h3⟩)
    · rcases hchain h1 with h2 | h2 | ⟨h2, h3⟩
      · exact .inl h2
      · exact .inr (.inl h2)
      · exact .inr (.inr ⟨h2, hmono _ h3⟩)
  · rintro r (⟨c, it, h1, h2⟩ | ⟨u, j, h1, h2⟩ | ⟨u, j, h1, h2⟩ | ⟨u, j, h1, h2, h3⟩ | h1)
    · rw [hc] at h1; exact fr r (hi.live r (.inl ⟨c, it, h1, h2⟩))
    · rcases tk u j h1 with ⟨_, rfl⟩ | ⟨_, h3⟩
      · exact (hres r h2).2.2
      · exact fr r (hi.live r (.inr (.inl ⟨u, j, h3, h2⟩)))
    · rcases tk u j h1 with ⟨_, rfl⟩ | ⟨_, h3⟩
      · rw [hsrc] at h2
        exact fr r (hi.live r (.inr (.inr (.inl ⟨t, k, hk, h2⟩))))
      · exact fr r (hi.live r (.inr (.inr (.inl ⟨u, j, h3, h2⟩))))
    · rcases tk u j h1 with ⟨_, rfl⟩ | ⟨_, h4⟩
      · rw [h3, hid]; exact (hw h2).2
      · exact fr r (hi.live r (.inr (.inr (.inr (.inl ⟨u, j, h4, h2, h3⟩)))))
    · rw [hh] at h1; exact fr r (hi.live r (.inr (.inr (.inr (.inr h1)))))
  · intro b it h1
    rw [hc] at h1
    obtain ⟨j, h2, h3, h4⟩ := hi.cacheTask b it h1
    rw [htk]
    by_cases h5 : it.task = t
    · rw [if_pos h5]
      rw [h5, hk] at h2; cases h2
      exact ⟨k', rfl, hid.trans h3, hv.trans h4⟩
    · rw [if_neg h5]; exact ⟨j, h2, h3, h4⟩
  · intro b it r h1 h2
    rw [hc] at h1
    obtain ⟨h3, h4⟩ := hi.cacheRes b it r h1 h2
    exact ⟨h3, hmono _ h4⟩
  · intro u j h1
    rcases tk u j h1 with ⟨_, rfl⟩ | ⟨_, h3⟩
    · rw [hid, hv]; exact hi.taskId t k hk
    · exact hi.taskId u j h3
  · intro u j r h1 h2
    rcases tk u j h1 with ⟨_, rfl⟩ | ⟨_, h3⟩
    · rw [hid]; exact ⟨(hres r h2).1, (hres r h2).2.1⟩
    · obtain ⟨h4, h5⟩ := hi.taskRes u j r h3 h2
      exact ⟨h4, hmono _ h5⟩
  · intro u j r h1 h2
    rcases tk u j h1 with ⟨_, rfl⟩ | ⟨_, h3⟩
    · rw [hsrc] at h2; rw [hid]
      obtain ⟨h4, h5⟩ := hi.srcDone t k r hk h2
      exact ⟨h4, hmono _ h5⟩
    · obtain ⟨h4, h5⟩ := hi.srcDone u j r h3 h2
      exact ⟨h4, hmono _ h5⟩
  · intro u j v h1 h2
    have : ∃ k'', s.tasks v = some k'' ∧ k''.id = env.prev j.id := by
      rcases tk u j h1 with ⟨_, rfl⟩ | ⟨_, h3⟩
      · rw [hsrc] at h2; rw [hid]; exact hi.srcTask t k v hk h2
      · exact hi.srcTask u j v h3 h2
    obtain ⟨k'', h4, h5⟩ := this
    rw [htk]
    by_cases h6 : v = t
    · rw [if_pos h6]
      rw [h6, hk] at h4; cases h4
      exact ⟨k', rfl, hid.trans h5⟩
    · rw [if_neg h6]; exact ⟨k'', h4, h5⟩
  · intro u j h1 h2
    rcases tk u j h1 with ⟨_, rfl⟩ | ⟨_, h3⟩
    · rw [hsrc] at h2; rw [hid]; exact hmono _ (hi.srcStorage t k hk h2)
    · exact hmono _ (hi.srcStorage u j h3 h2)
  · intro u j h1 h2
    rcases tk u j h1 with ⟨_, rfl⟩ | ⟨_, h3⟩
    · rw [hv]; exact (hw h2).1
    · exact hi.written u j h3 h2

theorem not_todo {env : Env} {s : St} (hi : Inv env s) {x : Id} (h : (s.base x.shard).seqno ≤ x.seqno) : x ∉ s.todo := by
  intro hm
  have := (hi.todo x hm).2
  omega

theorem searchDisk_path {env : Env} (ok : env.Ok) {s : St} (get : Id → Bool) (fuel : Nat) (x b p : Id) (upds l : List Id)
    (hx : s.above env x) (hbd : s.direct (s.base x.shard) = true) (hp : Path env x upds b) (h : s.searchDisk env get fuel x upds = some (p, l)) :
    s.direct p = true ∧ (s.base p.shard).seqno ≤ p.seqno ∧ Path env p l b := by
  induction fuel generalizing x upds with
  | zero => cases h
  | succ fuel ih =>
    rw [St.searchDisk] at h
    split at h
    · rename_i hl
      cases h
      refine ⟨?_, above_ge ok hx, hp⟩
      unfold St.lookup at hl
      split at hl
      · assumption
      · split at hl <;> (repeat (first | cases hl | split at hl))
    · rename_i hl
      have hn : x ≠ s.base x.shard := by
        intro e
        have hd := hbd
        rw [← e] at hd
        unfold St.lookup at hl
        rw [if_pos hd] at hl
        cases hl
      obtain ⟨h1, h2⟩ := above_prev ok hx hn
      exact ih (env.prev x) (x :: upds) h2 (by rw [ok.prev_shard x h1]; exact hbd) ⟨h1, rfl, hp⟩ h
    · cases h

theorem live_same {env : Env} {s s' : St} (h1 : s'.cache = s.cache) (h2 : s'.tasks = s.tasks) (h3 : s'.held = s.held) (r : Res)
    (h : s'.live r) : s.live r := by unfold St.live at h ⊢; rw [h1, h2, h3] at h; exact h

theorem inv_save {env : Env} {s : St} (hi : Inv env s) (t : Nat) (k : Task) (res : Option Res) (hk : s.tasks t = some k)
    (hr : k.result = some res) : Inv env (s.save k res) := by
  unfold St.save
  split
  · exact hi
  · rename_i it hit
    have put : ∀ st, (∀ r, st = .stored r → r.id = k.id ∧ s.stored k.id = true ∧ s.live r) →
        Inv env (s.putCache k.id (some { it with state := st })) := by
      intro st hst
      have hl : ∀ r, (s.putCache k.id (some { it with state := st })).live r → s.live r := by
        rintro r (⟨c, it', h1, h2⟩ | h)
        · simp only [St.putCache] at h1
          split at h1
          · cases h1; exact (hst r h2).2.2
          · exact .inl ⟨c, it', h1, h2⟩
        · exact .inr h
      refine ⟨hi.base, hi.todo, hi.mem, hi.chain, fun r hr => (hi.live r (hl r hr)).frame id (fun x hx => hx), ?_, ?_, hi.taskId, hi.taskRes,
        hi.srcDone, hi.srcTask, hi.srcStorage, hi.written⟩
      · intro b it' h1
        simp only [St.putCache] at h1 ⊢
        split at h1
        · rename_i e; subst e; cases h1; exact hi.cacheTask _ it hit
        · exact hi.cacheTask b it' h1
      · intro b it' r h1 h2
        simp only [St.putCache] at h1 ⊢
        split at h1
        · rename_i e; subst e; cases h1
          exact ⟨(hst r h2).1, (hst r h2).2.1⟩
        · exact hi.cacheRes b it' r h1 h2
    cases res with
    | none => exact put .failed (fun r h => nomatch h)
    | some r =>
      dsimp only
      have hp := put (.stored r) (by
        intro r' e; cases e
        obtain ⟨h1, h2⟩ := hi.taskRes t k r hk hr
        exact ⟨h1, h2, .inr (.inl ⟨t, k, hk, hr⟩)⟩)
      split
      · generalize s.putCache k.id (some { it with state := .stored r }) = s1 at hp ⊢
        have hl : ∀ r', St.live { s1 with pivotSeqno := fun sh => if sh = k.id.shard then r.pivot.seqno else s1.pivotSeqno sh, cache := fun c => if c.shard = k.id.shard ∧ c.seqno < r.pivot.seqno then none else s1.cache c } r' → s1.live r' := by
          rintro r' (⟨c, it', h1, h2⟩ | h)
          · dsimp only at h1
            split at h1
            · cases h1
            · exact .inl ⟨c, it', h1, h2⟩
          · exact .inr h
        refine ⟨hp.base, hp.todo, hp.mem, hp.chain, fun r' hr' => (hp.live r' (hl r' hr')).frame id (fun x hx => hx), ?_, ?_, hp.taskId, hp.taskRes,
          hp.srcDone, hp.srcTask, hp.srcStorage, hp.written⟩
        · intro b it' h1
          dsimp only at h1
          split at h1
          · cases h1
          · exact hp.cacheTask b it' h1
        · intro b it' r' h1 h2
          dsimp only at h1
          split at h1
          · cases h1
          · exact hp.cacheRes b it' r' h1 h2
      · exact hp

theorem inv_forget {env : Env} {s : St} (hi : Inv env s) (t : Nat) (h1 : ∀ b it, s.cache b = some it → it.task ≠ t)
    (h2 : ∀ u k, s.tasks u = some k → k.src ≠ .task t) : Inv env (s.putTask t none) := by
  have tk : ∀ u k, (s.putTask t none).tasks u = some k → s.tasks u = some k := by
    intro u k h
    simp only [St.putTask] at h
    split at h
    · cases h
    · exact h
  have kt : ∀ u k, u ≠ t → s.tasks u = some k → (s.putTask t none).tasks u = some k := by
    intro u k h h'
    simp only [St.putTask]; rw [if_neg h]; exact h'
  have hl : ∀ r, (s.putTask t none).live r → s.live r := by
    rintro r (h | ⟨u, k, h3, h4⟩ | ⟨u, k, h3, h4⟩ | ⟨u, k, h3, h4⟩ | h)
    · exact .inl h
    · exact .inr (.inl ⟨u, k, tk u k h3, h4⟩)
    · exact .inr (.inr (.inl ⟨u, k, tk u k h3, h4⟩))
    · exact .inr (.inr (.inr (.inl ⟨u, k, tk u k h3, h4⟩)))
    · exact .inr (.inr (.inr (.inr h)))
  refine ⟨hi.base, hi.todo, hi.mem, hi.chain, fun r hr => (hi.live r (hl r hr)).frame id (fun x hx => hx), ?_, hi.cacheRes,
    fun u k h => hi.taskId u k (tk u k h), fun u k r h => hi.taskRes u k r (tk u k h), fun u k r h => hi.srcDone u k r (tk u k h), ?_,
    fun u k h => hi.srcStorage u k (tk u k h), fun u k h => hi.written u k (tk u k h)⟩
  · intro b it h
    obtain ⟨k, h3, h4⟩ := hi.cacheTask b it h
    exact ⟨k, kt _ _ (h1 b it h) h3, h4⟩
  · intro u k v h h'
    obtain ⟨k', h3, h4⟩ := hi.srcTask u k v (tk u k h) h'
    refine ⟨k', kt _ _ ?_ h3, h4⟩
    rintro rfl
    exact h2 u k (tk u k h) h'

/-- A state is handed out. -/
theorem inv_hold {env : Env} {s : St} (hi : Inv env s) (r : Res) (hr : Good env s r) : Inv env { s with held := r :: s.held } := by
  refine ⟨hi.base, hi.todo, hi.mem, hi.chain, ?_, hi.cacheTask, hi.cacheRes, hi.taskId, hi.taskRes, hi.srcDone, hi.srcTask, hi.srcStorage, hi.written⟩
  rintro r' (h | h | h | h | h)
  · exact (hi.live r' (.inl h)).frame id (fun x hx => hx)
  · exact (hi.live r' (.inr (.inl h))).frame id (fun x hx => hx)
  · exact (hi.live r' (.inr (.inr (.inl h)))).frame id (fun x hx => hx)
  · exact (hi.live r' (.inr (.inr (.inr (.inl h))))).frame id (fun x hx => hx)
  · rcases List.mem_cons.1 h with rfl | h
    · exact hr.frame id (fun x hx => hx)
    · exact (hi.live r' (.inr (.inr (.inr (.inr h))))).frame id (fun x hx => hx)

theorem edge_le {env : Env} (ok : env.Ok) {s : St} {m : Nat} {edges : Nat → Id} (ht : s.tracked env m)
    (he : ∀ sh ∈ env.shards, IsEdge env s (env.mcMinRef m) sh (edges sh)) {r : Res} (hl : s.live r) (h0 : 0 < r.pivot.seqno)
    (hsh : r.pivot.shard ∈ env.shards) : (edges r.pivot.shard).seqno ≤ r.pivot.seqno := by
  have h1 := ht r hl h0
  have h2 := ok.minRef_top r.pivot (env.mcMinRef m) h0 (Nat.le_trans (ok.minRef_le m) h1)
  obtain ⟨_, _, h3⟩ := he _ hsh
  unfold Env.topSeqno at h2
  split at h3
  · rw [if_pos ‹_›] at h2; omega
  · rw [if_neg ‹_›] at h2; omega

theorem inv_gcStart {env : Env} (ok : env.Ok) {s : St} (hi : Inv env s) (m : Nat) (edges : Nat → Id) (todo : List Id) (ht : s.tracked env m)
    (he : ∀ sh ∈ env.shards, IsEdge env s (env.mcMinRef m) sh (edges sh))
    (hx : ∀ x, x ∈ todo ↔ s.direct x = true ∧ x.seqno ≠ 0 ∧ x.shard ∈ env.shards ∧ x.seqno < (edges x.shard).seqno) :
    Inv env { s with todo := todo, base := fun sh => if sh ∈ env.shards ∧ (s.base sh).seqno ≤ (edges sh).seqno then edges sh else s.base sh } := by
  have hb : ∀ sh, (s.base sh).seqno ≤ (if sh ∈ env.shards ∧ (s.base sh).seqno ≤ (edges sh).seqno then edges sh else s.base sh).seqno := by
    intro sh
    split
    · rename_i h; exact h.2
    · exact Nat.le_refl _
  refine ⟨?_, ?_, hi.mem, ?_, ?_, hi.cacheTask, hi.cacheRes, hi.taskId, hi.taskRes, hi.srcDone, hi.srcTask, hi.srcStorage, hi.written⟩
  · intro sh hsh
    dsimp only
    split
    · exact ⟨(he sh hsh).1, (he sh hsh).2.1⟩
    · exact hi.base sh hsh
  · intro x hxt
    obtain ⟨_, h2, h3, h4⟩ := (hx x).1 hxt
    refine ⟨h2, ?_⟩
    dsimp only
    split
    · exact h4
    · rename_i h
      have : ¬ (s.base x.shard).seqno ≤ (edges x.shard).seqno := fun h' => h ⟨h3, h'⟩
      omega
  · intro x hxs
    rcases hi.chain x hxs with h | h | h
    · exact .inl h
    · exact .inr (.inl (Nat.lt_of_lt_of_le h (hb _)))
    · exact .inr (.inr h)
  · intro r hr
    have hl : s.live r := hr
    have hg := hi.live r hl
    refine ⟨hg.shard, hg.le, hg.direct, ?_, hg.cells⟩
    intro hm
    obtain ⟨_, h2, h3, h4⟩ := (hx _).1 hm
    have := edge_le ok ht he hl (by omega) h3
    omega

theorem inv_gcRemove {env : Env} {s : St} (hi : Inv env s) (x : Id) (l : List Id) (hx : s.todo = x :: l) (f : Id → Nat) :
    Inv env { s with todo := l, direct := fun c => if c = x then false else s.direct c, trees := f } := by
  have hxt := (hi.todo x (by rw [hx]; exact List.mem_cons_self)).2
  have sub : ∀ y ∈ l, y ∈ s.todo := fun y hy => by rw [hx]; exact List.mem_cons_of_mem _ hy
  refine ⟨?_, fun y hy => hi.todo y (sub y hy), hi.mem, ?_, ?_, hi.cacheTask, hi.cacheRes, hi.taskId, hi.taskRes, hi.srcDone, hi.srcTask, hi.srcStorage,
    hi.written⟩
  · intro sh hsh
    obtain ⟨h1, h2⟩ := hi.base sh hsh
    refine ⟨?_, h2⟩
    dsimp only
    rw [if_neg]; exact h1
    rintro rfl
    rw [h2] at hxt; omega
  · intro y hy
    rcases hi.chain y hy with h | h | h
    · by_cases e : y = x
      · subst e; exact .inr (.inl hxt)
      · left; dsimp only; rw [if_neg e]; exact h
    · exact .inr (.inl h)
    · exact .inr (.inr h)
  · intro r hr
    have hg := hi.live r hr
    refine ⟨hg.shard, hg.le, ?_, fun hm => hg.todo (sub _ hm), hg.cells⟩
    dsimp only
    rw [if_neg]; exact hg.direct
    intro e
    apply hg.todo
    rw [e, hx]; exact List.mem_cons_self

theorem inv_todo {env : Env} {s : St} (hi : Inv env s) (l : List Id) (hl : ∀ x ∈ l, x ∈ s.todo) : Inv env { s with todo := l } :=
  ⟨hi.base, fun y hy => hi.todo y (hl y hy), hi.mem, hi.chain, fun r hr => (hi.live r hr).frame id hl, hi.cacheTask, hi.cacheRes, hi.taskId,
    hi.taskRes, hi.srcDone, hi.srcTask, hi.srcStorage, hi.written⟩

theorem inv_step {env : Env} (ok : env.Ok) {s s' : St} (hi : Inv env s) (h : Step env s s') : Inv env s' := by
  cases h with
  | data b h h1 h2 => exact inv_handles hi rfl rfl rfl rfl rfl rfl rfl
  | dropBlock b h1 => exact inv_handles hi rfl rfl rfl rfl rfl rfl rfl
  | begin b d e t h1 h2 h3 h4 h5 => exact inv_begin hi b d e t h1 h2 h3 h4 h5
  | existing t k h h1 h2 h3 h4 h5 h6 h7 h8 =>
    refine inv_task hi t k _ h1 (fun u => rfl) rfl rfl rfl rfl rfl rfl rfl (fun x h => h) ?_ (fun _ => .inl h7) ?_ ?_
    · intro x
      by_cases e : x = k.id <;> simp [St.markStored, St.putTask, e]
    · intro r e; cases e
      exact ⟨rfl, if_pos rfl, good_self env h7 (not_todo hi h8)⟩
    · intro hw; rw [show k.written = true from hw] at h4; cases h4
  | write t k h hlock h1 h2 h3 h4 h5 h6 h7 h8 =>
    refine inv_task hi t k { k with written := true } h1 (fun u => rfl) rfl rfl rfl rfl rfl rfl rfl ?_ ?_ ?_ ?_ ?_
    · intro x hx
      show (if x = k.id then true else s.direct x) = true
      split
      · rfl
      · exact hx
    · intro x
      by_cases e : x = k.id
      · subst e; simp [St.write, St.putTask]
      · simp [St.write, St.putTask, e]
    · intro _; left
      show (if k.id = k.id then true else s.direct k.id) = true
      rw [if_pos rfl]
    · intro r e
      rw [show k.result = some (some r) from e] at h2; cases h2
    · intro _
      refine ⟨h3, good_self env ?_ (fun hm => not_todo hi h8 hm)⟩
      show (if k.id = k.id then true else s.direct k.id) = true
      rw [if_pos rfl]
  | flag t k h1 h2 h3 =>
    have hg := hi.live ⟨k.id, k.id, []⟩ (.inr (.inr (.inr (.inl ⟨t, k, h1, h3, rfl⟩))))
    refine inv_task hi t k { k with result := some (some ⟨k.id, k.id, []⟩) } h1 (fun u => rfl) rfl rfl rfl rfl rfl rfl rfl (fun x h => h) ?_
      (fun _ => .inl hg.direct) ?_ ?_
    · intro x
      by_cases e : x = k.id <;> simp [St.flagDirect, St.markStored, St.putTask, St.putHandle, e]
    · intro r e; cases e
      exact ⟨rfl, if_pos rfl, hg.frame id (fun x hx => hx)⟩
    · intro hw; exact ⟨hi.written t k h1 hw, hg.frame id (fun x hx => hx)⟩
  | virt t k r h1 h2 h3 h4 h5 =>
    obtain ⟨hk0, hksh, hkv⟩ := hi.taskId t k h1
    have hr : Good env s r ∧ r.id = env.prev k.id ∧ s.stored (env.prev k.id) = true := by
      rcases h4 with h4 | ⟨h4, h6, get, p, upds, h7, ⟨c, h8⟩, rfl⟩
      · unfold St.prevRes at h4
        split at h4
        · cases h4
        · rename_i u hsrc
          cases hu : s.tasks u with
          | none => rw [hu] at h4; cases h4
          | some k' =>
            rw [hu] at h4
            obtain ⟨k'', h6, h7⟩ := hi.srcTask t k u h1 hsrc
            rw [hu] at h6; cases h6
            obtain ⟨h8, h9⟩ := hi.taskRes u k' r hu h4
            rw [h7] at h8 h9
            exact ⟨hi.live r (.inr (.inl ⟨u, k', hu, h4⟩)), h8, h9⟩
        · rename_i r' hsrc
          cases h4
          obtain ⟨h8, h9⟩ := hi.srcDone t k r h1 hsrc
          exact ⟨hi.live r (.inr (.inr (.inl ⟨t, k, h1, hsrc⟩))), h8, h9⟩
        · cases h4
        · cases h4
      · have hst := hi.srcStorage t k h1 h4
        have hpsh := ok.prev_shard k.id hk0
        obtain ⟨g1, g2, g3⟩ := searchDisk_path ok get _ (env.prev k.id) (env.prev k.id) p [] upds h6
          (hi.base _ (by rw [hpsh]; exact hksh)).1 rfl h7
        obtain ⟨g4, g5⟩ := good_fold ok upds (good_self env g1 (not_todo hi g2)) (b := env.prev k.id) g3
        exact ⟨g4, g5, hst⟩
    have hn := good_next ok hr.1 hk0 hr.2.1.symm
    refine inv_task hi t k { k with result := some (some (r.next env k.id)) } h1 (fun u => rfl) rfl rfl rfl rfl rfl rfl rfl (fun x h => h) ?_
      (fun _ => .inr (.inr ⟨hkv h3, hr.2.2⟩)) ?_ ?_
    · intro x
      by_cases e : x = k.id <;> simp [St.flagVirtual, St.markStored, St.putTask, St.putHandle, e]
    · intro r' e; cases e
      exact ⟨rfl, if_pos rfl, hn.frame id (fun x hx => hx)⟩
    · intro hw
      rw [hi.written t k h1 hw] at h3; cases h3
  | fail t k h1 h2 h3 =>
    refine inv_task hi t k { k with result := some none } h1 (fun u => rfl) rfl rfl rfl rfl rfl rfl rfl (fun x h => h) ?_ ?_ ?_ ?_
    · intro x
      show s.stored x = true ↔ s.stored x = true ∨ (x = k.id ∧ s.stored k.id = true)
      constructor
      · exact .inl
      · rintro (h | ⟨rfl, h⟩) <;> exact h
    · intro hs; exact hi.chain _ hs
    · intro r e; cases e
    · intro hw; rw [show k.written = true from hw] at h3; cases h3
  | save t k res h1 h2 => exact inv_save hi t k res h1 h2
  | forget t h0 h1 h2 => exact inv_forget hi t h1 h2
  | hold r h1 => exact inv_hold hi r (hi.live r h1)
  | holdDisk p h1 h2 h3 => exact inv_hold hi _ (good_self env h1 (not_todo hi h3))
  | holdNext r x h1 h2 h3 h4 h5 =>
    exact inv_hold hi _ (good_next ok (hi.live r (.inr (.inr (.inr (.inr h1))))) h3 h2)
  | release l h1 =>
    refine ⟨hi.base, hi.todo, hi.mem, hi.chain, ?_, hi.cacheTask, hi.cacheRes, hi.taskId, hi.taskRes, hi.srcDone, hi.srcTask, hi.srcStorage, hi.written⟩
    rintro r (h | h | h | h | h)
    · exact (hi.live r (.inl h)).frame id (fun x hx => hx)
    · exact (hi.live r (.inr (.inl h))).frame id (fun x hx => hx)
    · exact (hi.live r (.inr (.inr (.inl h)))).frame id (fun x hx => hx)
    · exact (hi.live r (.inr (.inr (.inr (.inl h))))).frame id (fun x hx => hx)
    · exact (hi.live r (.inr (.inr (.inr (.inr (h1 r h)))))).frame id (fun x hx => hx)
  | gcStart m edges todo h1 h2 h3 h4 h5 => exact inv_gcStart ok hi m edges todo h2 h3 h4
  | gcSkip x l h h1 h2 h3 => exact inv_todo hi l (fun y hy => by rw [h1]; exact List.mem_cons_of_mem _ hy)
  | gcRemove x l hlock h1 h2 => exact inv_gcRemove hi x l h1 _
  | gcStop => exact inv_todo hi [] (fun y hy => nomatch hy)

theorem inv_reboot {env : Env} {s : St} (hi : Inv env s) : Inv env s.reboot := by
  refine ⟨hi.base, (fun x hx => nomatch hx), hi.mem, hi.chain, ?_, (fun _ _ h => nomatch h), (fun _ _ _ h => nomatch h), (fun _ _ h => nomatch h),
    (fun _ _ _ h => nomatch h), (fun _ _ _ h => nomatch h), (fun _ _ _ h => nomatch h), (fun _ _ h => nomatch h), (fun _ _ h => nomatch h)⟩
  rintro r (⟨_, _, h, _⟩ | ⟨_, _, h, _⟩ | ⟨_, _, h, _⟩ | ⟨_, _, h, _⟩ | h)
  · cases h
  · cases h
  · cases h
  · cases h
  · cases h

theorem inv_exec {env : Env} (ok : env.Ok) {s : St} (h : Exec env s) : Inv env s := by
  induction h with
  | start s h => exact inv_start h
  | step s s' _ hs ih => exact inv_step ok ih hs
  | restart s _ ih => exact inv_reboot ih

end Tycho.ShardStates
