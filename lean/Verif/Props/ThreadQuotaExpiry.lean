import Verif.Props.ThreadQuotaTimer
import Verif.Props.QuotaExpiry
/-
C127 for a client used by many threads.
-/
set_option linter.unusedSectionVars false
namespace Verif.Quota
open Lru
variable {D : Type} {E : Env} {cfg : AggConfig} {h h1 : Hist D} {s : State D} {k : Bytes}

/-- If no more requests were sent for `k`, no call sent one. -/
theorem quiet_of_length {H : Bytes → Bytes} : ∀ n : Hist D, (sentAll H k (n ++ h)).length = (sentAll H k h).length → ∀ e ∈ n, sent H k e = [] := by
  have le : ∀ n : Hist D, (sentAll H k h).length ≤ (sentAll H k (n ++ h)).length := by
    intro n
    induction n with
    | nil => exact Nat.le_refl _
    | cons e n ih =>
      show _ ≤ (sentAll H k (n ++ h) ++ sent H k e).length
      rw [List.length_append]
      omega
  intro n
  induction n with
  | nil => intro _ e he; cases he
  | cons x n ih =>
    intro hl e he
    have hl' : (sentAll H k (n ++ h) ++ sent H k x).length = (sentAll H k h).length := hl
    rw [List.length_append] at hl'
    have := le n
    rcases List.mem_cons.mp he with rfl | he
    · exact List.length_eq_zero_iff.mp (by omega)
    · exact ih (by omega) e he

theorem lastSent_quiet {H : Bytes → Bytes} : ∀ n : Hist D, (∀ e ∈ n, sent H k e = []) → lastSent H k (n ++ h) = lastSent H k h := by
  intro n
  induction n with
  | nil => intro _; rfl
  | cons x n ih =>
    intro hq
    rw [List.cons_append, lastSent_keep (hq x List.mem_cons_self)]
    exact ih fun e he => hq e (List.mem_cons_of_mem _ he)

theorem mem_between {α : Type} {e : α} {t n l : List α} (h1 : e :: t <:+ n ++ l) (h2 : l <:+ t) : e ∈ n := by
  obtain ⟨a, ha⟩ := h1
  obtain ⟨b, rfl⟩ := h2
  have : (a ++ e :: b) ++ l = n ++ l := by rw [← ha]; simp
  rw [← List.append_cancel_right this]
  simp

section
variable (hm : Mono E.clk) (hf : 0 < E.extraFuel) (hpos : 0 < cfg.numEntries)
include hm hf hpos

/-- Without a request there is no new entry. -/
theorem still_absent : ∀ (n : Hist D) {s : State D}, Reach E cfg (n ++ h) s → NoCollision cfg.H (n ++ h) → ident k h = none →
    (∀ e ∈ n, sent cfg.H k e = []) → ident k (n ++ h) = none := by
  intro n
  induction n with
  | nil => intro s _ _ hi _; exact hi
  | cons x n ih =>
    intro s r hnc hi hq
    rw [List.cons_append] at r hnc ⊢
    cases r with
    | call r hs =>
      have h0 := ih r hnc.tail hi (fun e he => hq e (List.mem_cons_of_mem _ he))
      by_contra hne
      have hc := (C45_one_in_flight hm hf hpos r hs hnc k).1 ⟨hne, by rw [h0]; exact hne⟩
      have hx := hq _ List.mem_cons_self
      rw [hx] at hc
      cases hc

/-- What is not there has no entry. -/
theorem absent_entries (r : Reach E cfg h s) (hi : ident k h = none) : ∀ p, (k, p) ∉ entriesOf s := by
  obtain ⟨s0, b, rfl, hv⟩ := r.inv hm hf hpos
  intro p hp
  have hx := hv.id k
  rw [hi] at hx
  have hn : view s0.N k = none := by
    cases hx' : view s0.N k with
    | none => rfl
    | some y => rw [hx'] at hx; cases hx
  simp only [entriesOf, stateOf, cacheOf, List.mem_map] at hp
  obtain ⟨e, he, h2⟩ := hp
  cases h2
  exact view_none.mp hn e he rfl

/-- No request, no entry. -/
theorem absent_unsent (r : Reach E cfg h s) (hnc : NoCollision cfg.H h) (hl : lastSent cfg.H k h = none) : ident k h = none := by
  obtain ⟨s0, b, rfl, hv⟩ := r.inv hm hf hpos
  rw [hv.id k]
  cases hx : view s0.N k with
  | none => rfl
  | some y =>
    obtain ⟨p, v⟩ := y
    obtain ⟨ev, i, g, _⟩ := (hv.full hnc k).last p v hx
    rw [hl] at g
    cases g

end
end Verif.Quota

namespace Verif.Threads
open Client
variable {D : Type} [DoubleOps D] {K : Setup} {stops : Bool} {s0 s1 s2 s3 : Sys D} {k : Bytes}

/-- C127 under every schedule: no allocation request of a signature has been made since `s0`, that is, none was given to a transport, none is
in the hands of a thread and none was dropped that had not been then.  At `s1` the expiration interval has passed since every reading of
the clock before `s0`, and at `s2` more than the flush interval since every reading before `s1`.  Since then the timer has called its
function, and none of its calls is running.  Then the cache has no entry of the signature. -/
theorem C127_threads (r : Reach K stops s0) (l01 : Later K stops s0 s1) (l12 : Later K stops s1 s2) (l23 : Later K stops s2 s3)
    (hf : fires s2.c.trace < fires s3.c.trace) (hidle : s3.timers = 0) (sane : SaneQ K) (hpos : 0 < K.cfgQ.numEntries) (hfl : 0 ≤ K.cfgQ.flushMs)
    (hsame : (flushedQuotas K.cfgQ.H k s3.c.trace ++ carriedQuotas K.cfgQ.H k s3 ++ lostQuotas K.cfgQ.H k s3).length =
      (flushedQuotas K.cfgQ.H k s0.c.trace ++ carriedQuotas K.cfgQ.H k s0 ++ lostQuotas K.cfgQ.H k s0).length)
    (hexp : ∀ i, i < s0.c.quota.base.tick → 1000 * K.cfgQ.expirationMs ≤ K.envQ.clk s1.c.quota.base.tick - K.envQ.clk i)
    (hold : ∀ i, i < s1.c.quota.base.tick → K.envQ.clk i + K.cfgQ.cyc K.cfgQ.flushMs.toNat < K.envQ.clk s2.c.quota.base.tick)
    (hnc : NoQuotaCollision K.cfgQ.H s3.c.trace) : ∀ p, (k, p) ∉ Quota.entriesOf s3.c.quota := by
  obtain ⟨hc0, hq0, hr0, k0, _⟩ := r.caused hpos
  have r1 := Later.reach r l01
  have r2 := Later.reach r1 l12
  have r3 := Later.reach r2 l23
  obtain ⟨hc1, n1, hr1, k1, _⟩ := later_flushedQ r k0 l01 sane hpos
  obtain ⟨hc2, n2, hr2, k2, _⟩ := later_flushedQ r1 k1 l12 sane hpos
  obtain ⟨hc3, n3, hr3, k3, hP⟩ := later_flushedQ r2 k2 l23 sane hpos
  have hnc3 : Quota.NoCollision K.cfgQ.H (n3 ++ (n2 ++ (n1 ++ hq0))) := by
    intro q hq' q' hq'' he
    obtain ⟨i, h1⟩ := k3.asks q hq'
    obtain ⟨j, h2⟩ := k3.asks q' hq''
    exact hnc i q j q' h1 h2 he
  have hquiet : ∀ e ∈ n3 ++ (n2 ++ n1), Quota.sent K.cfgQ.H k e = [] := by
    refine Quota.quiet_of_length (h := hq0) _ ?_
    rw [← (quotas_perm k k0).length_eq, ← hsame, (quotas_perm k k3).length_eq]
    simp only [List.append_assoc]
  suffices Quota.ident k (n3 ++ (n2 ++ (n1 ++ hq0))) = none from
    fun p hp => Quota.absent_entries sane.1 sane.2 hpos (s := s3.c.quota.setCallback true) k3.q.reach this p hp
  have hlq : Quota.lastSent K.cfgQ.H k (n3 ++ (n2 ++ (n1 ++ hq0))) = Quota.lastSent K.cfgQ.H k hq0 := by
    have := Quota.lastSent_quiet (h := hq0) (k := k) (H := K.cfgQ.H) _ hquiet
    simpa only [List.append_assoc] using this
  cases hls : Quota.lastSent K.cfgQ.H k hq0 with
  | none => exact Quota.absent_unsent sane.1 sane.2 hpos k3.q.reach hnc3 (hlq.trans hls)
  | some ev0 =>
    rcases hP hf with ⟨n, _, hm⟩ | ⟨ev, hev, hcall, hfirst⟩
    · have := r3.shut.timers
      rw [hidle] at this
      exact absurd rfl (List.countP_eq_zero.mp this.symm _ hm)
    · obtain ⟨a, b, rfl⟩ := List.append_of_mem hev
      have hsuf : ev :: (b ++ (n2 ++ (n1 ++ hq0))) <:+ (a ++ ev :: b) ++ (n2 ++ (n1 ++ hq0)) := ⟨a, by simp⟩
      obtain ⟨sx, rx, _⟩ := Quota.Reach.split k3.q.reach hsuf
      have hq1 : ∀ e ∈ b ++ n2, Quota.sent K.cfgQ.H k e = [] := by
        intro e he
        refine hquiet e ?_
        rcases List.mem_append.mp he with he | he <;> simp [he]
      have hlast : ∀ e ∈ (n1 ++ hq0).head?, e.last = s1.c.quota.base.tick := by
        intro e he
        have k1r := k1.q.reach
        generalize n1 ++ hq0 = hh at he k1r
        cases hh with
        | nil => cases he
        | cons e' t => cases he; exact (Quota.Reach.tick (s := s1.c.quota.setCallback true) k1r).symm
      have hgone := Quota.C127_expires (k := k) sane.1 sane.2 hpos rx hcall (h1 := n1 ++ hq0) ⟨b ++ n2, by simp⟩ hfl (ev0 := ev0)
        (by rw [Quota.lastSent_quiet _ (fun e he => hquiet e (by simp [he]))]; exact hls)
        (fun e he i hi => by
          rw [hlast e he]
          refine hexp i ?_
          have hm0 : ev0 ∈ hq0 := List.mem_of_find?_eq_some hls
          have := (Quota.ticks sane.1 sane.2 hpos k0.q.reach ev0 hm0).2
          have h2 : ev0.last ≤ s0.c.quota.base.tick := this
          exact Nat.lt_of_lt_of_le hi.2 h2)
        (fun e t r hs ht _ _ => hq1 e (Quota.mem_between (by simpa using hs) ht))
        (fun e he i hi => by
          have h1 := hold i (by rw [← hlast e he]; exact hi)
          have h2 : K.envQ.clk s2.c.quota.base.tick ≤ K.envQ.clk ev.first := sane.1.le hfirst
          omega)
        (hnc3.suffix hsuf)
      have e1 : (a ++ ev :: b) ++ (n2 ++ (n1 ++ hq0)) = a ++ (ev :: (b ++ (n2 ++ (n1 ++ hq0)))) := by simp
      have k3r := k3.q.reach
      rw [e1] at k3r hnc3 ⊢
      exact Quota.still_absent sane.1 sane.2 hpos a k3r hnc3 hgone.1 (fun e he => hquiet e (by simp [he]))

/-- The quota cache's clock jumps by more than the expiration interval at its eighth reading. -/
def exKX : Setup := { exK with envQ := Client.exJump 7 20000 }

/-- 6 tokens wait in the cache when the expiration interval passes; the function called by the timer removes the entry and gives nothing to
the transport.  The hypotheses are met. -/
example : ∃ s1 s3 : Sys Int, Reach exKX true s1 ∧ Later exKX true s1 s3 ∧ fires s1.c.trace < fires s3.c.trace ∧ s3.timers = 0 ∧ SaneQ exKX ∧
    0 < exKX.cfgQ.numEntries ∧ 0 ≤ exKX.cfgQ.flushMs ∧
    (flushedQuotas exKX.cfgQ.H exSigQ s3.c.trace ++ carriedQuotas exKX.cfgQ.H exSigQ s3 ++ lostQuotas exKX.cfgQ.H exSigQ s3).length =
      (flushedQuotas exKX.cfgQ.H exSigQ s1.c.trace ++ carriedQuotas exKX.cfgQ.H exSigQ s1 ++ lostQuotas exKX.cfgQ.H exSigQ s1).length ∧
    (∀ i, i < s1.c.quota.base.tick → 1000 * exKX.cfgQ.expirationMs ≤ exKX.envQ.clk s1.c.quota.base.tick - exKX.envQ.clk i) ∧
    (∀ i, i < s1.c.quota.base.tick → exKX.envQ.clk i + exKX.cfgQ.cyc exKX.cfgQ.flushMs.toNat < exKX.envQ.clk s1.c.quota.base.tick) ∧
    NoQuotaCollision exKX.cfgQ.H s3.c.trace ∧ (Quota.entriesOf s1.c.quota).map (·.1) = [exSigQ] ∧
    (Quota.heldOf exKX.cfgQ exSigQ s1.c.quota).map (fun o => Quota.amount [o] [9]) = some 6 ∧ Quota.entriesOf s3.c.quota = [] := by
  obtain ⟨s, r, h⟩ := schedule_case (K := exKX) (stops := true) exGranted
    (fun s => s.c.quota.base.tick = 7 ∧ (Quota.entriesOf s.c.quota).map (·.1) = [exSigQ] ∧
      (Quota.heldOf exKX.cfgQ exSigQ s.c.quota).map (fun o => Quota.amount [o] [9]) = some 6 ∧
      (match ([.fire 0] ++ steps 0 4 : List (Move Int)).foldlM (fun s m => m.run exKX true s) s with
      | some s3 => decide (fires s.c.trace < fires s3.c.trace ∧ s3.timers = 0 ∧ askedQuotas s3.c.trace = [Quota.exQ 1 5, Quota.exQ 1 6] ∧
          (flushedQuotas exKX.cfgQ.H exSigQ s3.c.trace ++ carriedQuotas exKX.cfgQ.H exSigQ s3 ++ lostQuotas exKX.cfgQ.H exSigQ s3).length =
            (flushedQuotas exKX.cfgQ.H exSigQ s.c.trace ++ carriedQuotas exKX.cfgQ.H exSigQ s ++ lostQuotas exKX.cfgQ.H exSigQ s).length ∧
          Quota.entriesOf s3.c.quota = [])
      | none => false) = true) (by decide +kernel)
  obtain ⟨h1, h2, h3, h4⟩ := h
  split at h4
  · rename_i s3 hs3
    obtain ⟨g1, g2, g3, g4, g5⟩ := of_decide_eq_true h4
    refine ⟨s, s3, r, moves_later hs3, g1, g2, ⟨Client.exJump_mono 7 (by decide), by decide⟩, by decide, by decide, g4, ?_, ?_, ?_, h2, h3, g5⟩
    · clear * - h1
      intro i hi
      rw [h1] at hi ⊢
      have e1 : exKX.envQ.clk i = 0 := if_pos hi
      rw [e1]
      decide
    · clear * - h1
      intro i hi
      rw [h1] at hi ⊢
      have e1 : exKX.envQ.clk i = 0 := if_pos hi
      rw [e1]
      decide
    · clear * - g3
      refine noCollision_of fun r hr r' hr' _ => ?_
      rw [g3] at hr hr'
      simp only [List.mem_cons, List.not_mem_nil, or_false] at hr hr'
      rcases hr with rfl | rfl <;> rcases hr' with rfl | rfl <;> exact ⟨rfl, rfl, fun _ => Iff.rfl⟩
  · cases h4

end Verif.Threads
