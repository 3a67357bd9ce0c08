import Verif.StatisticsProps
import Verif.JoinProps

/-
C160: The statistical parameters of a signal follow from those of its parts
-/

namespace Verif
namespace Statistics

open Finset

variable {R : Type}

/-- the averages for the two parts of a signal -/
theorem average_parts {s p q : Signal ℝ R} {n m : Nat} (hn : 0 < n) (hm : 0 < m) (hL : n + m = s.length)
    (hp : Signal.IsCut s p 0 s.count 0 n) (hq : Signal.IsCut s q 0 s.count n m) (c : Nat) (f : ℝ → ℝ) :
    average s c f = (n * average p c f + m * average q c f) / (n + m) := by
  have h0 : (n : ℝ) ≠ 0 := Nat.cast_ne_zero.mpr (by omega)
  have h1 : (m : ℝ) ≠ 0 := Nat.cast_ne_zero.mpr (by omega)
  unfold average
  rw [hp.length, hq.length, mul_div_cancel₀ _ h0, mul_div_cancel₀ _ h1, ← hL, Finset.sum_range_add, Nat.cast_add]
  congr 2
  · refine Finset.sum_congr rfl fun i _ => ?_
    rw [hp.get, Nat.zero_add, Nat.zero_add]
  · refine Finset.sum_congr rfl fun i _ => ?_
    rw [hq.get, Nat.zero_add]

/-- C160: When a signal is cut into two parts, the mean values and the variances of its channels follow from those of the
parts: the mean value is the weighted average, and the variance is the weighted average of the variances plus a share, that
depends on the difference between the mean values. -/
theorem C160_parts (s : Signal ℝ R) (hs : s.WF) (n m : Nat) (hn : 0 < n) (hm : 0 < m) (hL : n + m = s.length) :
    ∃ (p q : Signal ℝ R) (μp μq vp vq : Nat → ℝ),
      s.getItem Signal.whole (Signal.upTo n) = some p ∧ s.getItem Signal.whole (Signal.fromTo n (n + m : Nat)) = some q ∧
      mean p false = eachChannel s (fun c => some (μp c)) ∧ mean q false = eachChannel s (fun c => some (μq c)) ∧
      variance p false = eachChannel s (fun c => some (vp c)) ∧ variance q false = eachChannel s (fun c => some (vq c)) ∧
      mean s false = eachChannel s (fun c => some ((n * μp c + m * μq c) / (n + m))) ∧
      variance s false = eachChannel s (fun c => some ((n * vp c + m * vq c) / (n + m) +
        n * m * (μp c - μq c) ^ 2 / (n + m) ^ 2)) := by
  obtain ⟨p, hp, cp⟩ := Signal.getItem_cut hs (Signal.selection_whole s.count) (Signal.selection_upTo n (by omega))
  obtain ⟨q, hq, cq⟩ := Signal.getItem_cut hs (Signal.selection_whole s.count) (Signal.selection_fromTo n m (by omega))
  have lp : 0 < p.length := by rw [cp.length]; exact hn
  have lq : 0 < q.length := by rw [cq.length]; exact hm
  have ls : 0 < s.length := by omega
  have ep := C94_channels p lp
  have eq := C94_channels q lq
  have es := C94_channels s ls
  have kp : ∀ g, eachChannel p g = eachChannel s g := fun g => by unfold eachChannel; rw [cp.count]
  have kq : ∀ g, eachChannel q g = eachChannel s g := fun g => by unfold eachChannel; rw [cq.count]
  refine ⟨p, q, fun c => μ (average p c), fun c => μ (average q c), fun c => moment (average p c) 2,
    fun c => moment (average q c) 2, hp, hq, by rw [ep.1, kp], by rw [eq.1, kq], by rw [ep.2.2.1, kp], by rw [eq.2.2.1, kq],
    ?_, ?_⟩
  · rw [es.1]
    congr 1
    funext c
    exact congrArg some (average_parts hn hm hL cp cq c _)
  · rw [es.2.2.1]
    congr 1
    funext c
    have h0 : (n : ℝ) + m ≠ 0 := by positivity
    have e1 : μ (average s c) = (n * μ (average p c) + m * μ (average q c)) / (n + m) := average_parts hn hm hL cp cq c _
    beta_reduce
    rw [(average_rules s c ls).variance_eq, (average_rules p c lp).variance_eq, (average_rules q c lq).variance_eq, e1,
      average_parts hn hm hL cp cq c]
    congr 1
    field_simp
    ring

/-- C160: The square of the level of a channel is the weighted average of those of the parts. -/
theorem C160_level (s : Signal ℝ ℝ) (hs : s.WF) (n m : Nat) (hn : 0 < n) (hm : 0 < m) (hL : n + m = s.length) :
    ∃ p q, s.getItem Signal.whole (Signal.upTo n) = some p ∧
      s.getItem Signal.whole (Signal.fromTo n (n + m : Nat)) = some q ∧
      ∀ c, Level.level s c ^ 2 = (n * Level.level p c ^ 2 + m * Level.level q c ^ 2) / (n + m) := by
  obtain ⟨p, hp, cp⟩ := Signal.getItem_cut hs (Signal.selection_whole s.count) (Signal.selection_upTo n (by omega))
  obtain ⟨q, hq, cq⟩ := Signal.getItem_cut hs (Signal.selection_whole s.count) (Signal.selection_fromTo n m (by omega))
  refine ⟨p, q, hp, hq, fun c => ?_⟩
  have lp : 0 < p.length := by rw [cp.length]; exact hn
  have lq : 0 < q.length := by rw [cq.length]; exact hm
  have ls : 0 < s.length := by omega
  have key : ∀ t : Signal ℝ ℝ, 0 < t.length → Level.level t c ^ 2 = average t c fun x => x ^ 2 := by
    intro t ht
    rw [(C94_level t c ht).1, (average_rules t c ht).variance_eq, sub_add_cancel]
  rw [key s ls, key p lp, key q lq]
  exact average_parts hn hm hL cp cq c _

/-- the hypotheses are satisfiable: a signal with five samples is cut after the second one -/
example : ∃ s : Signal ℝ ℝ, s.WF ∧ 2 + 3 = s.length := ⟨⟨⟨2, 5, fun c i => c + i ^ 2⟩, 48000, 3, ["a", "b"]⟩, rfl, rfl⟩

end Statistics
end Verif
