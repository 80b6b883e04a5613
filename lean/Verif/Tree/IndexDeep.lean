import Verif.Tree.IndexProps

/-! `Remove` of the index tree never rebalances, so a history of less than 2000 calls makes a tree with 179
entries that is deeper than the stack of an iterator, the index of which is an int8. -/

namespace Verif.IndexTree

open Tree Size

/-- `limit` for the default tolerance in a form that is quick to evaluate. -/
def fastLimit (h : Nat) : Option (Int × Int) :=
  if Nat.blt h 63 then some (Int.ofNat (2 ^ h), Int.ofNat (2 ^ h / 4 + 1))
  else if Nat.beq h 63 then some (-9223372036854775808, -2305843009213693951) else some (0, 1)

theorem fastLimit_eq : limit 2 = fastLimit := by
  funext h
  by_cases hh : h < 64
  · revert h; decide +kernel
  · have h1 : ¬ h < 63 := by omega
    have h2 : h ≠ 63 := by omega
    have h3 : Nat.blt h 63 = false := by
      cases e : Nat.blt h 63
      · rfl
      · exact absurd (Nat.le_of_ble_eq_true e) h1
    have h4 : Nat.beq h 63 = false := by
      cases e : Nat.beq h 63
      · rfl
      · exact absurd (Nat.eq_of_beq_eq_true e) h2
    simp [limit, shl64, fastLimit, h1, h2, h3, h4]

/-- `Put(k, nil)` or `Remove(k)`. -/
inductive Move where
  | put (k : Int) | del (k : Int)

def Move.op : Move → Op Int Unit
  | .put k => .put k none
  | .del k => .remove k

/-- What a call does to the tree. -/
def moveStep (t : T Int (Option Unit)) : Move → Option (T Int (Option Unit))
  | .put k => (Size.put fastLimit Compare.any k none kept t).map (·.1)
  | .del k => (Size.remove (fun _ w => w) Compare.any k t).map (·.1)

theorem step_move (t : T Int (Option Unit)) (m : Move) :
    (step 2 Compare.any t m.op).map (·.1) = moveStep t m := by
  cases m <;> simp [Move.op, step, moveStep, fastLimit_eq, Function.comp_def]

def moveRun : T Int (Option Unit) → List Move → Option (T Int (Option Unit))
  | t, [] => some t
  | t, m :: ms => (moveStep t m).bind fun t' => moveRun t' ms

theorem run_move (ms : List Move) : ∀ (t : T Int (Option Unit)),
    (run (step 2 Compare.any) t (ms.map Move.op)).map (·.1) = moveRun t ms := by
  induction ms with
  | nil => intro t; rfl
  | cons m ms ih =>
    intro t
    have h := step_move t m
    simp only [List.map_cons, run, moveRun]
    rw [← h]
    cases hs : step 2 Compare.any t m.op with
    | none => rfl
    | some p =>
      simp only [Option.map_some, Option.bind_some, ← ih]
      cases run (step 2 Compare.any) p.1 (ms.map Move.op) <;> rfl

def puts0 : List Int := [0, 1, 2, 3, 4, 5, 6, 7, 8, 9, 10, 11, 12, 13, 14, 15, 16, 17, 18, 19, 20, 21,
  22, 23, 24, 25, 26, 27, 28, 29, 30, 31, 32, 33, 34, 35, 36, 37, 38, 39, 40, 41, 42, 43, 44, 45, 46,
  47, 48, 49, 50, 51, 52, 53, 54, 55, 124, 1065, 1066, 1067, 1068, 1069, 1070, 1071, 1072, 1073, 1074,
  1075]
def dels0 : List Int := [0, 2, 4, 6, 8, 10, 12, 14, 16, 18, 20, 22, 24, 26, 28, 30, 32, 34, 36, 38, 40,
  42, 44, 46, 48, 50, 52, 54, 1066, 1068, 1070, 1072, 1075, 1, 5, 9, 13, 17, 21, 25, 29, 33, 37, 41, 45,
  49, 53, 1069, 1074, 3, 11, 19, 27, 35, 43, 51, 1073, 7, 23, 39, 15]
def puts1 : List Int := [56, 57, 58, 59, 60, 61, 62, 63, 64, 65, 66, 67, 68, 69, 70, 71, 72, 73, 74, 75,
  76, 77, 78, 79, 80, 81, 82, 83, 84, 85, 86, 87, 88, 89, 90, 91, 92, 93, 94, 95, 96, 97, 98, 99, 100,
  101, 102, 103, 104, 105, 106, 107, 108, 109, 110, 111, 112, 113, 114, 115, 116, 117, 118, 119, 120,
  121, 122, 123]
def dels1 : List Int := [56, 58, 60, 62, 64, 66, 68, 70, 72, 74, 76, 78, 80, 82, 84, 86, 88, 90, 92, 94,
  96, 98, 100, 102, 104, 106, 108, 110, 112, 114, 116, 118, 120, 123, 57, 63, 69, 75, 81, 87, 93, 99,
  105, 111, 117, 122, 59, 65, 71, 77, 83, 89, 95, 101, 107, 113, 119, 55, 67, 79, 91, 103, 47, 61, 31]
def puts2 : List Int := [125, 126, 127, 128, 129, 130, 131, 132, 133, 134, 135, 136, 137, 138, 139, 140,
  141, 142, 143, 144, 145, 146, 147, 148, 149, 150, 151, 152, 153, 154, 155, 156, 157, 158, 159, 160,
  161, 162, 163, 164, 165, 166, 167, 168, 169, 170, 171, 172, 173, 174, 175, 176, 177, 178, 179, 180,
  181, 182, 183, 184, 185, 186, 187, 188, 189, 190, 191, 1064]
def dels2 : List Int := [125, 127, 129, 131, 133, 135, 137, 139, 141, 143, 145, 147, 149, 151, 153, 155,
  157, 159, 161, 163, 165, 167, 169, 171, 173, 175, 177, 179, 181, 183, 185, 187, 189, 1067, 124, 130,
  136, 142, 148, 154, 160, 166, 172, 178, 184, 1071, 126, 132, 138, 144, 150, 156, 162, 168, 174, 180,
  186, 121, 115]
def puts3 : List Int := [192, 193, 194, 195, 196, 197, 198, 199, 200, 201, 202, 203, 204, 205, 206, 207,
  208, 209, 210, 211, 212, 213, 214, 215, 216, 217, 218, 219, 220, 221, 222, 223, 224, 225, 226, 227,
  228, 229, 230, 231, 232, 233, 234, 235, 236, 237, 238, 239, 240, 241, 242, 243, 244, 245, 246, 247,
  248, 249, 250, 251, 252, 253, 254, 255, 256, 257, 258, 1063]
def dels3 : List Int := [191, 193, 195, 198, 201, 204, 207, 210, 213, 216, 219, 222, 225, 228, 231, 234,
  237, 240, 243, 246, 249, 252, 255, 1065, 190, 196, 199, 202, 205, 208, 211, 214, 217, 220, 223, 226,
  229, 232, 235, 238, 241, 244, 247, 250, 253, 256, 192, 197, 203, 209, 215, 221, 227, 233, 239, 245,
  251, 188, 182]
def puts4 : List Int := [259, 260, 261, 262, 263, 264, 265, 266, 267, 268, 269, 270, 271, 272, 273, 274,
  275, 276, 277, 278, 279, 280, 281, 282, 283, 284, 285, 286, 287, 288, 289, 290, 291, 292, 293, 294,
  295, 296, 297, 298, 299, 300, 301, 302, 303, 304, 305, 306, 307, 308, 309, 310, 311, 312, 313, 314,
  315, 316, 317, 318, 319, 320, 321, 322, 323, 1060, 1061, 1062]
def dels4 : List Int := [258, 261, 264, 267, 270, 273, 276, 279, 282, 285, 288, 291, 294, 297, 300, 303,
  306, 309, 312, 315, 318, 321, 1062, 1064, 259, 262, 265, 268, 271, 274, 277, 280, 283, 286, 289, 292,
  295, 298, 301, 304, 307, 310, 313, 316, 319, 322, 257, 263, 269, 275, 281, 287, 293, 299, 305, 311,
  317, 254, 260, 248]
def puts5 : List Int := [324, 325, 326, 327, 328, 329, 330, 331, 332, 333, 334, 335, 336, 337, 338, 339,
  340, 341, 342, 343, 344, 345, 346, 347, 348, 349, 350, 351, 352, 353, 354, 355, 356, 357, 358, 359,
  360, 361, 362, 363, 364, 365, 366, 367, 368, 369, 370, 371, 372, 373, 374, 375, 376, 377, 378, 379,
  380, 381, 382, 383, 384, 385, 386, 387, 388, 389, 390, 1059]
def dels5 : List Int := [324, 326, 328, 330, 332, 334, 336, 338, 340, 342, 344, 346, 348, 350, 352, 354,
  356, 358, 360, 362, 364, 366, 368, 370, 372, 374, 376, 378, 380, 382, 384, 386, 388, 1061, 323, 329,
  335, 341, 347, 353, 359, 365, 371, 377, 383, 1063, 325, 331, 337, 343, 349, 355, 361, 367, 373, 379,
  385, 320, 314]
def puts6 : List Int := [391, 392, 393, 394, 395, 396, 397, 398, 399, 400, 401, 402, 403, 404, 405, 406,
  407, 408, 409, 410, 411, 412, 413, 414, 415, 416, 417, 418, 419, 420, 421, 422, 423, 424, 425, 426,
  427, 428, 429, 430, 431, 432, 433, 434, 435, 436, 437, 438, 439, 440, 441, 442, 443, 444, 445, 446,
  447, 448, 449, 450, 451, 452, 453, 454, 455, 456, 457, 1058]
def dels6 : List Int := [390, 392, 394, 397, 400, 403, 406, 409, 412, 415, 418, 421, 424, 427, 430, 433,
  436, 439, 442, 445, 448, 451, 454, 1060, 389, 395, 398, 401, 404, 407, 410, 413, 416, 419, 422, 425,
  428, 431, 434, 437, 440, 443, 446, 449, 452, 455, 391, 396, 402, 408, 414, 420, 426, 432, 438, 444,
  450, 387, 381]
def puts7 : List Int := [458, 459, 460, 461, 462, 463, 464, 465, 466, 467, 468, 469, 470, 471, 472, 473,
  474, 475, 476, 477, 478, 479, 480, 481, 482, 483, 484, 485, 486, 487, 488, 489, 490, 491, 492, 493,
  494, 495, 496, 497, 498, 499, 500, 501, 502, 503, 504, 505, 506, 507, 508, 509, 510, 511, 512, 513,
  514, 515, 516, 517, 518, 519, 520, 521, 522, 1055, 1056, 1057]
def dels7 : List Int := [457, 460, 463, 466, 469, 472, 475, 478, 481, 484, 487, 490, 493, 496, 499, 502,
  505, 508, 511, 514, 517, 520, 1057, 1059, 458, 461, 464, 467, 470, 473, 476, 479, 482, 485, 488, 491,
  494, 497, 500, 503, 506, 509, 512, 515, 518, 521, 456, 462, 468, 474, 480, 486, 492, 498, 504, 510,
  516, 453, 459, 447]
def puts8 : List Int := [523, 524, 525, 526, 527, 528, 529, 530, 531, 532, 533, 534, 535, 536, 537, 538,
  539, 540, 541, 542, 543, 544, 545, 546, 547, 548, 549, 550, 551, 552, 553, 554, 555, 556, 557, 558,
  559, 560, 561, 562, 563, 564, 565, 566, 567, 568, 569, 570, 571, 572, 573, 574, 575, 576, 577, 578,
  579, 580, 581, 582, 583, 584, 585, 586, 587, 588, 589, 1054]
def dels8 : List Int := [523, 525, 527, 529, 531, 533, 535, 537, 539, 541, 543, 545, 547, 549, 551, 553,
  555, 557, 559, 561, 563, 565, 567, 569, 571, 573, 575, 577, 579, 581, 583, 585, 587, 1056, 522, 528,
  534, 540, 546, 552, 558, 564, 570, 576, 582, 1058, 524, 530, 536, 542, 548, 554, 560, 566, 572, 578,
  584, 519, 513]
def puts9 : List Int := [590, 591, 592, 593, 594, 595, 596, 597, 598, 599, 600, 601, 602, 603, 604, 605,
  606, 607, 608, 609, 610, 611, 612, 613, 614, 615, 616, 617, 618, 619, 620, 621, 622, 623, 624, 625,
  626, 627, 628, 629, 630, 631, 632, 633, 634, 635, 636, 637, 638, 639, 640, 641, 642, 643, 644, 645,
  646, 647, 648, 649, 650, 651, 652, 653, 654, 655, 656, 1053]
def dels9 : List Int := [589, 591, 593, 596, 599, 602, 605, 608, 611, 614, 617, 620, 623, 626, 629, 632,
  635, 638, 641, 644, 647, 650, 653, 1055, 588, 594, 597, 600, 603, 606, 609, 612, 615, 618, 621, 624,
  627, 630, 633, 636, 639, 642, 645, 648, 651, 654, 590, 595, 601, 607, 613, 619, 625, 631, 637, 643,
  649, 586, 580]
def puts10 : List Int := [657, 658, 659, 660, 661, 662, 663, 664, 665, 666, 667, 668, 669, 670, 671,
  672, 673, 674, 675, 676, 677, 678, 679, 680, 681, 682, 683, 684, 685, 686, 687, 688, 689, 690, 691,
  692, 693, 694, 695, 696, 697, 698, 699, 700, 701, 702, 703, 704, 705, 706, 707, 708, 709, 710, 711,
  712, 713, 714, 715, 716, 717, 718, 719, 720, 721, 1050, 1051, 1052]
def dels10 : List Int := [656, 659, 662, 665, 668, 671, 674, 677, 680, 683, 686, 689, 692, 695, 698,
  701, 704, 707, 710, 713, 716, 719, 1052, 1054, 657, 660, 663, 666, 669, 672, 675, 678, 681, 684, 687,
  690, 693, 696, 699, 702, 705, 708, 711, 714, 717, 720, 655, 661, 667, 673, 679, 685, 691, 697, 703,
  709, 715, 652, 658, 646]
def puts11 : List Int := [722, 723, 724, 725, 726, 727, 728, 729, 730, 731, 732, 733, 734, 735, 736,
  737, 738, 739, 740, 741, 742, 743, 744, 745, 746, 747, 748, 749, 750, 751, 752, 753, 754, 755, 756,
  757, 758, 759, 760, 761, 762, 763, 764, 765, 766, 767, 768, 769, 770, 771, 772, 773, 774, 775, 776,
  777, 778, 779, 780, 781, 782, 783, 784, 785, 786, 787, 788, 1049]
def dels11 : List Int := [722, 724, 726, 728, 730, 732, 734, 736, 738, 740, 742, 744, 746, 748, 750,
  752, 754, 756, 758, 760, 762, 764, 766, 768, 770, 772, 774, 776, 778, 780, 782, 784, 786, 1051, 721,
  727, 733, 739, 745, 751, 757, 763, 769, 775, 781, 1053, 723, 729, 735, 741, 747, 753, 759, 765, 771,
  777, 783, 718, 712]
def puts12 : List Int := [789, 790, 791, 792, 793, 794, 795, 796, 797, 798, 799, 800, 801, 802, 803,
  804, 805, 806, 807, 808, 809, 810, 811, 812, 813, 814, 815, 816, 817, 818, 819, 820, 821, 822, 823,
  824, 825, 826, 827, 828, 829, 830, 831, 832, 833, 834, 835, 836, 837, 838, 839, 840, 841, 842, 843,
  844, 845, 846, 847, 848, 849, 850, 851, 852, 853, 854, 855, 1048]
def dels12 : List Int := [788, 790, 792, 795, 798, 801, 804, 807, 810, 813, 816, 819, 822, 825, 828,
  831, 834, 837, 840, 843, 846, 849, 852, 1050, 787, 793, 796, 799, 802, 805, 808, 811, 814, 817, 820,
  823, 826, 829, 832, 835, 838, 841, 844, 847, 850, 853, 789, 794, 800, 806, 812, 818, 824, 830, 836,
  842, 848, 785, 779]
def puts13 : List Int := [856, 857, 858, 859, 860, 861, 862, 863, 864, 865, 866, 867, 868, 869, 870,
  871, 872, 873, 874, 875, 876, 877, 878, 879, 880, 881, 882, 883, 884, 885, 886, 887, 888, 889, 890,
  891, 892, 893, 894, 895, 896, 897, 898, 899, 900, 901, 902, 903, 904, 905, 906, 907, 908, 909, 910,
  911, 912, 913, 914, 915, 916, 917, 918, 919, 920, 1045, 1046, 1047]
def dels13 : List Int := [855, 858, 861, 864, 867, 870, 873, 876, 879, 882, 885, 888, 891, 894, 897,
  900, 903, 906, 909, 912, 915, 918, 1047, 1049, 856, 859, 862, 865, 868, 871, 874, 877, 880, 883, 886,
  889, 892, 895, 898, 901, 904, 907, 910, 913, 916, 919, 854, 860, 866, 872, 878, 884, 890, 896, 902,
  908, 914, 851, 857, 845]
def puts14 : List Int := [921, 922, 923, 924, 925, 926, 927, 928, 929, 930, 931, 932, 933, 934, 935,
  936, 937, 938, 939, 940, 941, 942, 943, 944, 945, 946, 947, 948, 949, 950, 951, 952, 953, 954, 955,
  956, 957, 958, 959, 960, 961, 962, 963, 964, 965, 966, 967, 968, 969, 970, 971, 972, 973, 974, 975,
  976, 977, 978, 979, 980, 981, 982, 983, 984, 985, 986, 987, 1044]
def dels14 : List Int := [921, 923, 925, 927, 929, 931, 933, 935, 937, 939, 941, 943, 945, 947, 949,
  951, 953, 955, 957, 959, 961, 963, 965, 967, 969, 971, 973, 975, 977, 979, 981, 983, 985, 1046, 920,
  926, 932, 938, 944, 950, 956, 962, 968, 974, 980, 1048, 922, 928, 934, 940, 946, 952, 958, 964, 970,
  976, 982, 917, 911]
def puts15 : List Int := [988, 989, 990, 991, 992, 993, 994, 995, 996, 997, 998, 999, 1000, 1001, 1002,
  1003, 1004, 1005, 1006, 1007, 1008, 1009, 1010, 1011, 1012, 1013, 1014, 1015, 1016, 1017, 1018, 1019,
  1020, 1021, 1022, 1023, 1024, 1025, 1026, 1027, 1028, 1029, 1030, 1031, 1032, 1033, 1034, 1035, 1036,
  1037, 1038, 1039, 1040, 1041, 1042, 1043]
def dels15 : List Int := []

/-- Two rounds of the history. -/
def rounds (p d p' d' : List Int) : List Move :=
  p.map .put ++ d.map .del ++ (p'.map .put ++ d'.map .del)

def part0 : List Move := rounds puts0 dels0 puts1 dels1
def part1 : List Move := rounds puts2 dels2 puts3 dels3
def part2 : List Move := rounds puts4 dels4 puts5 dels5
def part3 : List Move := rounds puts6 dels6 puts7 dels7
def part4 : List Move := rounds puts8 dels8 puts9 dels9
def part5 : List Move := rounds puts10 dels10 puts11 dels11
def part6 : List Move := rounds puts12 dels12 puts13 dels13
def part7 : List Move := rounds puts14 dels14 puts15 dels15

def deep : List Move :=
  part0 ++ (part1 ++ (part2 ++ (part3 ++ (part4 ++ (part5 ++ (part6 ++ part7))))))

theorem moveRun_append (a b : List Move) : ∀ (t : T Int (Option Unit)),
    moveRun t (a ++ b) = (moveRun t a).bind fun t' => moveRun t' b := by
  induction a with
  | nil => intro t; rfl
  | cons m ms ih =>
    intro t
    simp only [List.cons_append, moveRun]
    cases moveStep t m with
    | none => rfl
    | some t' => exact ih t'

theorem any_append {a b : List Move} {s t : T Int (Option Unit)} {f : T Int (Option Unit) → Bool}
    (h : moveRun s a = some t) (h' : (moveRun t b).any f = true) : (moveRun s (a ++ b)).any f = true := by
  rw [moveRun_append, h]
  exact h'

/-! The trees between the parts, so that the kernel evaluates one part at a time. -/

/-- A new leaf, without rebalancing. -/
def graft (k : Int) : T Int (Option Unit) → T Int (Option Unit)
  | nil => node 1 k none nil nil
  | node a x v l r => if k < x then node (a + 1) x v (graft k l) r else node (a + 1) x v l (graft k r)

/-- The tree with these keys, parents before children. -/
def grow (ks : List Int) : T Int (Option Unit) := ks.foldl (fun t k => graft k t) nil

def same : T Int (Option Unit) → T Int (Option Unit) → Bool
  | nil, nil => true
  | node a k v l r, node a' k' v' l' r' =>
    decide (a = a') && decide (k = k') && decide (v = v') && same l l' && same r r'
  | _, _ => false

theorem eq_of_same : ∀ {s t : T Int (Option Unit)}, same s t = true → s = t
  | nil, nil, _ => rfl
  | node _ _ _ l r, node _ _ _ l' r', h => by
    simp only [same, Bool.and_eq_true, decide_eq_true_eq] at h
    obtain ⟨⟨⟨⟨rfl, rfl⟩, rfl⟩, hl⟩, hr⟩ := h
    rw [eq_of_same hl, eq_of_same hr]
  | nil, node .., h => nomatch h
  | node .., nil, h => nomatch h

theorem moveRun_of_same {s t : T Int (Option Unit)} {ms : List Move}
    (h : (moveRun s ms).any (same t) = true) : moveRun s ms = some t := by
  obtain ⟨t', ht, hs⟩ := (Option.any_eq_true _ _).1 h
  rw [ht, eq_of_same hs]

def keys1 : List Int := [73, 85, 97, 109, 115, 121, 124, 1071, 1067, 1065]
def keys2 : List Int := [73, 85, 97, 109, 128, 134, 140, 146, 152, 158, 164, 170, 176, 194, 200, 206,
  212, 218, 224, 230, 236, 242, 248, 254, 257, 1064, 258, 1063]
def keys3 : List Int := [73, 85, 97, 109, 128, 134, 140, 146, 152, 158, 164, 170, 176, 194, 200, 206,
  212, 218, 224, 230, 236, 242, 266, 272, 278, 284, 290, 296, 302, 308, 327, 333, 339, 345, 351, 357,
  363, 369, 375, 381, 387, 1060, 389, 390, 1059]
def keys4 : List Int := [73, 85, 97, 109, 128, 134, 140, 146, 152, 158, 164, 170, 176, 194, 200, 206,
  212, 218, 224, 230, 236, 242, 266, 272, 278, 284, 290, 296, 302, 308, 327, 333, 339, 345, 351, 357,
  363, 369, 375, 393, 399, 405, 411, 417, 423, 429, 435, 441, 465, 471, 477, 483, 489, 495, 501, 507,
  513, 519, 522, 1058, 1056, 1055]
def keys5 : List Int := [73, 85, 97, 109, 128, 134, 140, 146, 152, 158, 164, 170, 176, 194, 200, 206,
  212, 218, 224, 230, 236, 242, 266, 272, 278, 284, 290, 296, 302, 308, 327, 333, 339, 345, 351, 357,
  363, 369, 375, 393, 399, 405, 411, 417, 423, 429, 435, 441, 465, 471, 477, 483, 489, 495, 501, 507,
  526, 532, 538, 544, 550, 556, 562, 568, 574, 592, 598, 604, 610, 616, 622, 628, 634, 640, 646, 652,
  655, 1054, 656, 1053]
def keys6 : List Int := [73, 85, 97, 109, 128, 134, 140, 146, 152, 158, 164, 170, 176, 194, 200, 206,
  212, 218, 224, 230, 236, 242, 266, 272, 278, 284, 290, 296, 302, 308, 327, 333, 339, 345, 351, 357,
  363, 369, 375, 393, 399, 405, 411, 417, 423, 429, 435, 441, 465, 471, 477, 483, 489, 495, 501, 507,
  526, 532, 538, 544, 550, 556, 562, 568, 574, 592, 598, 604, 610, 616, 622, 628, 634, 640, 664, 670,
  676, 682, 688, 694, 700, 706, 725, 731, 737, 743, 749, 755, 761, 767, 773, 779, 785, 1050, 787, 788,
  1049]
def keys7 : List Int := [73, 85, 97, 109, 128, 134, 140, 146, 152, 158, 164, 170, 176, 194, 200, 206,
  212, 218, 224, 230, 236, 242, 266, 272, 278, 284, 290, 296, 302, 308, 327, 333, 339, 345, 351, 357,
  363, 369, 375, 393, 399, 405, 411, 417, 423, 429, 435, 441, 465, 471, 477, 483, 489, 495, 501, 507,
  526, 532, 538, 544, 550, 556, 562, 568, 574, 592, 598, 604, 610, 616, 622, 628, 634, 640, 664, 670,
  676, 682, 688, 694, 700, 706, 725, 731, 737, 743, 749, 755, 761, 767, 773, 791, 797, 803, 809, 815,
  821, 827, 833, 839, 863, 869, 875, 881, 887, 893, 899, 905, 911, 917, 920, 1048, 1046, 1045]

-- One evaluation after the other, to bound the memory.
set_option Elab.async false

theorem run_part0 : moveRun nil part0 = some (grow keys1) :=
  moveRun_of_same (by decide +kernel)

theorem run_part1 : moveRun (grow keys1) part1 = some (grow keys2) :=
  moveRun_of_same (by decide +kernel)

theorem run_part2 : moveRun (grow keys2) part2 = some (grow keys3) :=
  moveRun_of_same (by decide +kernel)

theorem run_part3 : moveRun (grow keys3) part3 = some (grow keys4) :=
  moveRun_of_same (by decide +kernel)

theorem run_part4 : moveRun (grow keys4) part4 = some (grow keys5) :=
  moveRun_of_same (by decide +kernel)

theorem run_part5 : moveRun (grow keys5) part5 = some (grow keys6) :=
  moveRun_of_same (by decide +kernel)

theorem run_part6 : moveRun (grow keys6) part6 = some (grow keys7) :=
  moveRun_of_same (by decide +kernel)

/-- tree/indextree/utils.go:316-333 `getNode` with a count of the calls of the comparator. -/
def getC {K V : Type} (cmp : K → K → Int) (key : K) : T K V → Nat × Option (K × V)
  | nil => (0, none)
  | node _ k v l r =>
    let c := cmp key k
    if c < 0 then ((getC cmp key l).1 + 1, (getC cmp key l).2)
    else if c > 0 then ((getC cmp key r).1 + 1, (getC cmp key r).2)
    else (1, some (k, v))

theorem getC_snd {K V : Type} (cmp : K → K → Int) (key : K) (t : T K V) :
    (getC cmp key t).2 = get cmp key t := by
  induction t with
  | nil => rfl
  | node a k v l r ihl ihr =>
    simp only [getC, Size.get, ← ihl, ← ihr]
    (repeat' split) <;> rfl

/-- What is wrong with the tree after that history. -/
def tooDeep (t : T Int (Option Unit)) : Bool :=
  decide (sz t = 179) && decide ((getC Compare.any 1043 t).1 = 130) && (get Compare.any 1043 t).isSome &&
    (run (istep Compare.any t) (It.new t) [.seekGE 1043]).isNone &&
    (run (istep Compare.any t) (It.new t) [.seekLE 1043]).isNone

theorem run_part7 : (moveRun (grow keys7) part7).any tooDeep = true := by decide +kernel

theorem moveRun_deep : (moveRun nil deep).any tooDeep = true :=
  any_append run_part0 (any_append run_part1 (any_append run_part2 (any_append run_part3
    (any_append run_part4 (any_append run_part5 (any_append run_part6 run_part7))))))

theorem moves_legal (ms : List Move) : ∀ xs,
    LegalRun (spec (ord Compare.any)) (legalState Compare.any) xs (ms.map Move.op) := by
  induction ms with
  | nil => intro xs; exact trivial
  | cons m ms ih => intro xs; exact ⟨by cases m <;> exact trivial, ih _⟩

theorem deep_length : deep.length = 1973 := by decide +kernel

/-- The tree is reached. -/
theorem deep_reached : ∃ (t : T Int (Option Unit)) (xs : List (Int × Option Unit)),
    Reached 2 Compare.any t xs ∧ tooDeep t = true := by
  obtain ⟨t, ht, hd⟩ := (Option.any_eq_true _ _).1 moveRun_deep
  obtain ⟨p, hp, rfl⟩ := Option.map_eq_some_iff.1 ((run_move deep nil).trans ht)
  exact ⟨p.1, _, ⟨deep.map Move.op, p.2, moves_legal deep [], hp, rfl⟩, hd⟩

/-- 1973 calls of `Put` and `Remove` make a tree of 179 entries on which `SeekGE` and `SeekLE` with a key
that is there panic. -/
theorem C42_deep_panics : ∃ (t : T Int (Option Unit)) (xs : List (Int × Option Unit)),
    Reached 2 Compare.any t xs ∧ sz t = 179 ∧ (get Compare.any 1043 t).isSome = true ∧
    run (istep Compare.any t) (It.new t) [.seekGE 1043] = none ∧
    run (istep Compare.any t) (It.new t) [.seekLE 1043] = none := by
  obtain ⟨t, xs, h, hd⟩ := deep_reached
  simp only [tooDeep, Bool.and_eq_true, decide_eq_true_eq, Option.isNone_iff_eq_none] at hd
  exact ⟨t, xs, h, hd.1.1.1.1, hd.1.1.2, hd.1.2, hd.2⟩

/-- C83 fails for index trees: in that tree `Get` calls the comparator 130 times. -/
theorem C83_indextree_deep : ∃ (t : T Int (Option Unit)) (xs : List (Int × Option Unit)),
    Reached 2 Compare.any t xs ∧ xs.length = 179 ∧ (getC Compare.any 1043 t).1 = 130 := by
  obtain ⟨t, xs, h, hd⟩ := deep_reached
  simp only [tooDeep, Bool.and_eq_true, decide_eq_true_eq] at hd
  have hR := h.rel any_lawful
  have hz := hR.exact.sz
  rw [hR.list, hd.1.1.1.1] at hz
  exact ⟨t, xs, h, by omega, hd.1.1.1.2⟩

end Verif.IndexTree
