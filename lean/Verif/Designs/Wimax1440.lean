import Verif.Lemmas.RowSpan
-- Generated by tools/gen_designs.py from /repo/commpy/channelcoding/designs/ldpc/wimax/1440.720.txt
namespace Verif

/-- The checks listed in the design file (designs/ldpc/wimax/1440.720.txt:1445-2164), columns counted from 0, sorted. Part 1. -/
def wimax1440Checks1 : Checks := [
  [118, 165, 514, 591, 724, 780], [119, 166, 515, 592, 725, 781], [60, 167, 516, 593, 726, 782], [61, 168, 517, 594, 727, 783],
  [62, 169, 518, 595, 728, 784], [63, 170, 519, 596, 729, 785], [64, 171, 520, 597, 730, 786], [65, 172, 521, 598, 731, 787],
  [66, 173, 522, 599, 732, 788], [67, 174, 523, 540, 733, 789], [68, 175, 524, 541, 734, 790], [69, 176, 525, 542, 735, 791],
  [70, 177, 526, 543, 736, 792], [71, 178, 527, 544, 737, 793], [72, 179, 528, 545, 738, 794], [73, 120, 529, 546, 739, 795],
  [74, 121, 530, 547, 740, 796], [75, 122, 531, 548, 741, 797], [76, 123, 532, 549, 742, 798], [77, 124, 533, 550, 743, 799],
  [78, 125, 534, 551, 744, 800], [79, 126, 535, 552, 745, 801], [80, 127, 536, 553, 746, 802], [81, 128, 537, 554, 747, 803],
  [82, 129, 538, 555, 748, 804], [83, 130, 539, 556, 749, 805], [84, 131, 480, 557, 750, 806], [85, 132, 481, 558, 751, 807],
  [86, 133, 482, 559, 752, 808], [87, 134, 483, 560, 753, 809], [88, 135, 484, 561, 754, 810], [89, 136, 485, 562, 755, 811],
  [90, 137, 486, 563, 756, 812], [91, 138, 487, 564, 757, 813], [92, 139, 488, 565, 758, 814], [93, 140, 489, 566, 759, 815],
  [94, 141, 490, 567, 760, 816], [95, 142, 491, 568, 761, 817], [96, 143, 492, 569, 762, 818], [97, 144, 493, 570, 763, 819],
  [98, 145, 494, 571, 764, 820], [99, 146, 495, 572, 765, 821], [100, 147, 496, 573, 766, 822], [101, 148, 497, 574, 767, 823],
  [102, 149, 498, 575, 768, 824], [103, 150, 499, 576, 769, 825], [104, 151, 500, 577, 770, 826], [105, 152, 501, 578, 771, 827],
  [106, 153, 502, 579, 772, 828], [107, 154, 503, 580, 773, 829], [108, 155, 504, 581, 774, 830], [109, 156, 505, 582, 775, 831],
  [110, 157, 506, 583, 776, 832], [111, 158, 507, 584, 777, 833], [112, 159, 508, 585, 778, 834], [113, 160, 509, 586, 779, 835],
  [114, 161, 510, 587, 720, 836], [115, 162, 511, 588, 721, 837], [116, 163, 512, 589, 722, 838], [117, 164, 513, 590, 723, 839]]

/-- The checks listed in the design file (designs/ldpc/wimax/1440.720.txt:1445-2164), columns counted from 0, sorted. Part 2. -/
def wimax1440Checks2 : Checks := [
  [76, 313, 409, 425, 667, 780, 840], [77, 314, 410, 426, 668, 781, 841], [78, 315, 411, 427, 669, 782, 842], [79, 316, 412, 428, 670, 783, 843],
  [80, 317, 413, 429, 671, 784, 844], [81, 318, 414, 430, 672, 785, 845], [82, 319, 415, 431, 673, 786, 846], [83, 320, 416, 432, 674, 787, 847],
  [84, 321, 417, 433, 675, 788, 848], [85, 322, 418, 434, 676, 789, 849], [86, 323, 419, 435, 677, 790, 850], [87, 324, 360, 436, 678, 791, 851],
  [88, 325, 361, 437, 679, 792, 852], [89, 326, 362, 438, 680, 793, 853], [90, 327, 363, 439, 681, 794, 854], [91, 328, 364, 440, 682, 795, 855],
  [92, 329, 365, 441, 683, 796, 856], [93, 330, 366, 442, 684, 797, 857], [94, 331, 367, 443, 685, 798, 858], [95, 332, 368, 444, 686, 799, 859],
  [96, 333, 369, 445, 687, 800, 860], [97, 334, 370, 446, 688, 801, 861], [98, 335, 371, 447, 689, 802, 862], [99, 336, 372, 448, 690, 803, 863],
  [100, 337, 373, 449, 691, 804, 864], [101, 338, 374, 450, 692, 805, 865], [102, 339, 375, 451, 693, 806, 866], [103, 340, 376, 452, 694, 807, 867],
  [104, 341, 377, 453, 695, 808, 868], [105, 342, 378, 454, 696, 809, 869], [106, 343, 379, 455, 697, 810, 870], [107, 344, 380, 456, 698, 811, 871],
  [108, 345, 381, 457, 699, 812, 872], [109, 346, 382, 458, 700, 813, 873], [110, 347, 383, 459, 701, 814, 874], [111, 348, 384, 460, 702, 815, 875],
  [112, 349, 385, 461, 703, 816, 876], [113, 350, 386, 462, 704, 817, 877], [114, 351, 387, 463, 705, 818, 878], [115, 352, 388, 464, 706, 819, 879],
  [116, 353, 389, 465, 707, 820, 880], [117, 354, 390, 466, 708, 821, 881], [118, 355, 391, 467, 709, 822, 882], [119, 356, 392, 468, 710, 823, 883],
  [60, 357, 393, 469, 711, 824, 884], [61, 358, 394, 470, 712, 825, 885], [62, 359, 395, 471, 713, 826, 886], [63, 300, 396, 472, 714, 827, 887],
  [64, 301, 397, 473, 715, 828, 888], [65, 302, 398, 474, 716, 829, 889], [66, 303, 399, 475, 717, 830, 890], [67, 304, 400, 476, 718, 831, 891],
  [68, 305, 401, 477, 719, 832, 892], [69, 306, 402, 478, 660, 833, 893], [70, 307, 403, 479, 661, 834, 894], [71, 308, 404, 420, 662, 835, 895],
  [72, 309, 405, 421, 663, 836, 896], [73, 310, 406, 422, 664, 837, 897], [74, 311, 407, 423, 665, 838, 898], [75, 312, 408, 424, 666, 839, 899]]

/-- The checks listed in the design file (designs/ldpc/wimax/1440.720.txt:1445-2164), columns counted from 0, sorted. Part 3. -/
def wimax1440Checks3 : Checks := [
  [195, 253, 350, 440, 660, 840, 900], [196, 254, 351, 441, 661, 841, 901], [197, 255, 352, 442, 662, 842, 902], [198, 256, 353, 443, 663, 843, 903],
  [199, 257, 354, 444, 664, 844, 904], [200, 258, 355, 445, 665, 845, 905], [201, 259, 356, 446, 666, 846, 906], [202, 260, 357, 447, 667, 847, 907],
  [203, 261, 358, 448, 668, 848, 908], [204, 262, 359, 449, 669, 849, 909], [205, 263, 300, 450, 670, 850, 910], [206, 264, 301, 451, 671, 851, 911],
  [207, 265, 302, 452, 672, 852, 912], [208, 266, 303, 453, 673, 853, 913], [209, 267, 304, 454, 674, 854, 914], [210, 268, 305, 455, 675, 855, 915],
  [211, 269, 306, 456, 676, 856, 916], [212, 270, 307, 457, 677, 857, 917], [213, 271, 308, 458, 678, 858, 918], [214, 272, 309, 459, 679, 859, 919],
  [215, 273, 310, 460, 680, 860, 920], [216, 274, 311, 461, 681, 861, 921], [217, 275, 312, 462, 682, 862, 922], [218, 276, 313, 463, 683, 863, 923],
  [219, 277, 314, 464, 684, 864, 924], [220, 278, 315, 465, 685, 865, 925], [221, 279, 316, 466, 686, 866, 926], [222, 280, 317, 467, 687, 867, 927],
  [223, 281, 318, 468, 688, 868, 928], [224, 282, 319, 469, 689, 869, 929], [225, 283, 320, 470, 690, 870, 930], [226, 284, 321, 471, 691, 871, 931],
  [227, 285, 322, 472, 692, 872, 932], [228, 286, 323, 473, 693, 873, 933], [229, 287, 324, 474, 694, 874, 934], [230, 288, 325, 475, 695, 875, 935],
  [231, 289, 326, 476, 696, 876, 936], [232, 290, 327, 477, 697, 877, 937], [233, 291, 328, 478, 698, 878, 938], [234, 292, 329, 479, 699, 879, 939],
  [235, 293, 330, 420, 700, 880, 940], [236, 294, 331, 421, 701, 881, 941], [237, 295, 332, 422, 702, 882, 942], [238, 296, 333, 423, 703, 883, 943],
  [239, 297, 334, 424, 704, 884, 944], [180, 298, 335, 425, 705, 885, 945], [181, 299, 336, 426, 706, 886, 946], [182, 240, 337, 427, 707, 887, 947],
  [183, 241, 338, 428, 708, 888, 948], [184, 242, 339, 429, 709, 889, 949], [185, 243, 340, 430, 710, 890, 950], [186, 244, 341, 431, 711, 891, 951],
  [187, 245, 342, 432, 712, 892, 952], [188, 246, 343, 433, 713, 893, 953], [189, 247, 344, 434, 714, 894, 954], [190, 248, 345, 435, 715, 895, 955],
  [191, 249, 346, 436, 716, 896, 956], [192, 250, 347, 437, 717, 897, 957], [193, 251, 348, 438, 718, 898, 958], [194, 252, 349, 439, 719, 899, 959]]

/-- The checks listed in the design file (designs/ldpc/wimax/1440.720.txt:1445-2164), columns counted from 0, sorted. Part 4. -/
def wimax1440Checks4 : Checks := [
  [38, 149, 520, 555, 900, 960], [39, 150, 521, 556, 901, 961], [40, 151, 522, 557, 902, 962], [41, 152, 523, 558, 903, 963],
  [42, 153, 524, 559, 904, 964], [43, 154, 525, 560, 905, 965], [44, 155, 526, 561, 906, 966], [45, 156, 527, 562, 907, 967],
  [46, 157, 528, 563, 908, 968], [47, 158, 529, 564, 909, 969], [48, 159, 530, 565, 910, 970], [49, 160, 531, 566, 911, 971],
  [50, 161, 532, 567, 912, 972], [51, 162, 533, 568, 913, 973], [52, 163, 534, 569, 914, 974], [53, 164, 535, 570, 915, 975],
  [54, 165, 536, 571, 916, 976], [55, 166, 537, 572, 917, 977], [56, 167, 538, 573, 918, 978], [57, 168, 539, 574, 919, 979],
  [58, 169, 480, 575, 920, 980], [59, 170, 481, 576, 921, 981], [0, 171, 482, 577, 922, 982], [1, 172, 483, 578, 923, 983],
  [2, 173, 484, 579, 924, 984], [3, 174, 485, 580, 925, 985], [4, 175, 486, 581, 926, 986], [5, 176, 487, 582, 927, 987], [6, 177, 488, 583, 928, 988],
  [7, 178, 489, 584, 929, 989], [8, 179, 490, 585, 930, 990], [9, 120, 491, 586, 931, 991], [10, 121, 492, 587, 932, 992],
  [11, 122, 493, 588, 933, 993], [12, 123, 494, 589, 934, 994], [13, 124, 495, 590, 935, 995], [14, 125, 496, 591, 936, 996],
  [15, 126, 497, 592, 937, 997], [16, 127, 498, 593, 938, 998], [17, 128, 499, 594, 939, 999], [18, 129, 500, 595, 940, 1000],
  [19, 130, 501, 596, 941, 1001], [20, 131, 502, 597, 942, 1002], [21, 132, 503, 598, 943, 1003], [22, 133, 504, 599, 944, 1004],
  [23, 134, 505, 540, 945, 1005], [24, 135, 506, 541, 946, 1006], [25, 136, 507, 542, 947, 1007], [26, 137, 508, 543, 948, 1008],
  [27, 138, 509, 544, 949, 1009], [28, 139, 510, 545, 950, 1010], [29, 140, 511, 546, 951, 1011], [30, 141, 512, 547, 952, 1012],
  [31, 142, 513, 548, 953, 1013], [32, 143, 514, 549, 954, 1014], [33, 144, 515, 550, 955, 1015], [34, 145, 516, 551, 956, 1016],
  [35, 146, 517, 552, 957, 1017], [36, 147, 518, 553, 958, 1018], [37, 148, 519, 554, 959, 1019]]

/-- The checks listed in the design file (designs/ldpc/wimax/1440.720.txt:1445-2164), columns counted from 0, sorted. Part 5. -/
def wimax1440Checks5 : Checks := [
  [144, 412, 565, 645, 960, 1020], [145, 413, 566, 646, 961, 1021], [146, 414, 567, 647, 962, 1022], [147, 415, 568, 648, 963, 1023],
  [148, 416, 569, 649, 964, 1024], [149, 417, 570, 650, 965, 1025], [150, 418, 571, 651, 966, 1026], [151, 419, 572, 652, 967, 1027],
  [152, 360, 573, 653, 968, 1028], [153, 361, 574, 654, 969, 1029], [154, 362, 575, 655, 970, 1030], [155, 363, 576, 656, 971, 1031],
  [156, 364, 577, 657, 972, 1032], [157, 365, 578, 658, 973, 1033], [158, 366, 579, 659, 974, 1034], [159, 367, 580, 600, 975, 1035],
  [160, 368, 581, 601, 976, 1036], [161, 369, 582, 602, 977, 1037], [162, 370, 583, 603, 978, 1038], [163, 371, 584, 604, 979, 1039],
  [164, 372, 585, 605, 980, 1040], [165, 373, 586, 606, 981, 1041], [166, 374, 587, 607, 982, 1042], [167, 375, 588, 608, 983, 1043],
  [168, 376, 589, 609, 984, 1044], [169, 377, 590, 610, 985, 1045], [170, 378, 591, 611, 986, 1046], [171, 379, 592, 612, 987, 1047],
  [172, 380, 593, 613, 988, 1048], [173, 381, 594, 614, 989, 1049], [174, 382, 595, 615, 990, 1050], [175, 383, 596, 616, 991, 1051],
  [176, 384, 597, 617, 992, 1052], [177, 385, 598, 618, 993, 1053], [178, 386, 599, 619, 994, 1054], [179, 387, 540, 620, 995, 1055],
  [120, 388, 541, 621, 996, 1056], [121, 389, 542, 622, 997, 1057], [122, 390, 543, 623, 998, 1058], [123, 391, 544, 624, 999, 1059],
  [124, 392, 545, 625, 1000, 1060], [125, 393, 546, 626, 1001, 1061], [126, 394, 547, 627, 1002, 1062], [127, 395, 548, 628, 1003, 1063],
  [128, 396, 549, 629, 1004, 1064], [129, 397, 550, 630, 1005, 1065], [130, 398, 551, 631, 1006, 1066], [131, 399, 552, 632, 1007, 1067],
  [132, 400, 553, 633, 1008, 1068], [133, 401, 554, 634, 1009, 1069], [134, 402, 555, 635, 1010, 1070], [135, 403, 556, 636, 1011, 1071],
  [136, 404, 557, 637, 1012, 1072], [137, 405, 558, 638, 1013, 1073], [138, 406, 559, 639, 1014, 1074], [139, 407, 560, 640, 1015, 1075],
  [140, 408, 561, 641, 1016, 1076], [141, 409, 562, 642, 1017, 1077], [142, 410, 563, 643, 1018, 1078], [143, 411, 564, 644, 1019, 1079]]

/-- The checks listed in the design file (designs/ldpc/wimax/1440.720.txt:1445-2164), columns counted from 0, sorted. Part 6. -/
def wimax1440Checks6 : Checks := [
  [268, 325, 471, 709, 720, 1020, 1080], [269, 326, 472, 710, 721, 1021, 1081], [270, 327, 473, 711, 722, 1022, 1082],
  [271, 328, 474, 712, 723, 1023, 1083], [272, 329, 475, 713, 724, 1024, 1084], [273, 330, 476, 714, 725, 1025, 1085],
  [274, 331, 477, 715, 726, 1026, 1086], [275, 332, 478, 716, 727, 1027, 1087], [276, 333, 479, 717, 728, 1028, 1088],
  [277, 334, 420, 718, 729, 1029, 1089], [278, 335, 421, 719, 730, 1030, 1090], [279, 336, 422, 660, 731, 1031, 1091],
  [280, 337, 423, 661, 732, 1032, 1092], [281, 338, 424, 662, 733, 1033, 1093], [282, 339, 425, 663, 734, 1034, 1094],
  [283, 340, 426, 664, 735, 1035, 1095], [284, 341, 427, 665, 736, 1036, 1096], [285, 342, 428, 666, 737, 1037, 1097],
  [286, 343, 429, 667, 738, 1038, 1098], [287, 344, 430, 668, 739, 1039, 1099], [288, 345, 431, 669, 740, 1040, 1100],
  [289, 346, 432, 670, 741, 1041, 1101], [290, 347, 433, 671, 742, 1042, 1102], [291, 348, 434, 672, 743, 1043, 1103],
  [292, 349, 435, 673, 744, 1044, 1104], [293, 350, 436, 674, 745, 1045, 1105], [294, 351, 437, 675, 746, 1046, 1106],
  [295, 352, 438, 676, 747, 1047, 1107], [296, 353, 439, 677, 748, 1048, 1108], [297, 354, 440, 678, 749, 1049, 1109],
  [298, 355, 441, 679, 750, 1050, 1110], [299, 356, 442, 680, 751, 1051, 1111], [240, 357, 443, 681, 752, 1052, 1112],
  [241, 358, 444, 682, 753, 1053, 1113], [242, 359, 445, 683, 754, 1054, 1114], [243, 300, 446, 684, 755, 1055, 1115],
  [244, 301, 447, 685, 756, 1056, 1116], [245, 302, 448, 686, 757, 1057, 1117], [246, 303, 449, 687, 758, 1058, 1118],
  [247, 304, 450, 688, 759, 1059, 1119], [248, 305, 451, 689, 760, 1060, 1120], [249, 306, 452, 690, 761, 1061, 1121],
  [250, 307, 453, 691, 762, 1062, 1122], [251, 308, 454, 692, 763, 1063, 1123], [252, 309, 455, 693, 764, 1064, 1124],
  [253, 310, 456, 694, 765, 1065, 1125], [254, 311, 457, 695, 766, 1066, 1126], [255, 312, 458, 696, 767, 1067, 1127],
  [256, 313, 459, 697, 768, 1068, 1128], [257, 314, 460, 698, 769, 1069, 1129], [258, 315, 461, 699, 770, 1070, 1130],
  [259, 316, 462, 700, 771, 1071, 1131], [260, 317, 463, 701, 772, 1072, 1132], [261, 318, 464, 702, 773, 1073, 1133],
  [262, 319, 465, 703, 774, 1074, 1134], [263, 320, 466, 704, 775, 1075, 1135], [264, 321, 467, 705, 776, 1076, 1136],
  [265, 322, 468, 706, 777, 1077, 1137], [266, 323, 469, 707, 778, 1078, 1138], [267, 324, 470, 708, 779, 1079, 1139]]

/-- The checks listed in the design file (designs/ldpc/wimax/1440.720.txt:1445-2164), columns counted from 0, sorted. Part 7. -/
def wimax1440Checks7 : Checks := [
  [179, 213, 548, 611, 1080, 1140], [120, 214, 549, 612, 1081, 1141], [121, 215, 550, 613, 1082, 1142], [122, 216, 551, 614, 1083, 1143],
  [123, 217, 552, 615, 1084, 1144], [124, 218, 553, 616, 1085, 1145], [125, 219, 554, 617, 1086, 1146], [126, 220, 555, 618, 1087, 1147],
  [127, 221, 556, 619, 1088, 1148], [128, 222, 557, 620, 1089, 1149], [129, 223, 558, 621, 1090, 1150], [130, 224, 559, 622, 1091, 1151],
  [131, 225, 560, 623, 1092, 1152], [132, 226, 561, 624, 1093, 1153], [133, 227, 562, 625, 1094, 1154], [134, 228, 563, 626, 1095, 1155],
  [135, 229, 564, 627, 1096, 1156], [136, 230, 565, 628, 1097, 1157], [137, 231, 566, 629, 1098, 1158], [138, 232, 567, 630, 1099, 1159],
  [139, 233, 568, 631, 1100, 1160], [140, 234, 569, 632, 1101, 1161], [141, 235, 570, 633, 1102, 1162], [142, 236, 571, 634, 1103, 1163],
  [143, 237, 572, 635, 1104, 1164], [144, 238, 573, 636, 1105, 1165], [145, 239, 574, 637, 1106, 1166], [146, 180, 575, 638, 1107, 1167],
  [147, 181, 576, 639, 1108, 1168], [148, 182, 577, 640, 1109, 1169], [149, 183, 578, 641, 1110, 1170], [150, 184, 579, 642, 1111, 1171],
  [151, 185, 580, 643, 1112, 1172], [152, 186, 581, 644, 1113, 1173], [153, 187, 582, 645, 1114, 1174], [154, 188, 583, 646, 1115, 1175],
  [155, 189, 584, 647, 1116, 1176], [156, 190, 585, 648, 1117, 1177], [157, 191, 586, 649, 1118, 1178], [158, 192, 587, 650, 1119, 1179],
  [159, 193, 588, 651, 1120, 1180], [160, 194, 589, 652, 1121, 1181], [161, 195, 590, 653, 1122, 1182], [162, 196, 591, 654, 1123, 1183],
  [163, 197, 592, 655, 1124, 1184], [164, 198, 593, 656, 1125, 1185], [165, 199, 594, 657, 1126, 1186], [166, 200, 595, 658, 1127, 1187],
  [167, 201, 596, 659, 1128, 1188], [168, 202, 597, 600, 1129, 1189], [169, 203, 598, 601, 1130, 1190], [170, 204, 599, 602, 1131, 1191],
  [171, 205, 540, 603, 1132, 1192], [172, 206, 541, 604, 1133, 1193], [173, 207, 542, 605, 1134, 1194], [174, 208, 543, 606, 1135, 1195],
  [175, 209, 544, 607, 1136, 1196], [176, 210, 545, 608, 1137, 1197], [177, 211, 546, 609, 1138, 1198], [178, 212, 547, 610, 1139, 1199]]

/-- The checks listed in the design file (designs/ldpc/wimax/1440.720.txt:1445-2164), columns counted from 0, sorted. Part 8. -/
def wimax1440Checks8 : Checks := [
  [66, 165, 361, 569, 1140, 1200], [67, 166, 362, 570, 1141, 1201], [68, 167, 363, 571, 1142, 1202], [69, 168, 364, 572, 1143, 1203],
  [70, 169, 365, 573, 1144, 1204], [71, 170, 366, 574, 1145, 1205], [72, 171, 367, 575, 1146, 1206], [73, 172, 368, 576, 1147, 1207],
  [74, 173, 369, 577, 1148, 1208], [75, 174, 370, 578, 1149, 1209], [76, 175, 371, 579, 1150, 1210], [77, 176, 372, 580, 1151, 1211],
  [78, 177, 373, 581, 1152, 1212], [79, 178, 374, 582, 1153, 1213], [80, 179, 375, 583, 1154, 1214], [81, 120, 376, 584, 1155, 1215],
  [82, 121, 377, 585, 1156, 1216], [83, 122, 378, 586, 1157, 1217], [84, 123, 379, 587, 1158, 1218], [85, 124, 380, 588, 1159, 1219],
  [86, 125, 381, 589, 1160, 1220], [87, 126, 382, 590, 1161, 1221], [88, 127, 383, 591, 1162, 1222], [89, 128, 384, 592, 1163, 1223],
  [90, 129, 385, 593, 1164, 1224], [91, 130, 386, 594, 1165, 1225], [92, 131, 387, 595, 1166, 1226], [93, 132, 388, 596, 1167, 1227],
  [94, 133, 389, 597, 1168, 1228], [95, 134, 390, 598, 1169, 1229], [96, 135, 391, 599, 1170, 1230], [97, 136, 392, 540, 1171, 1231],
  [98, 137, 393, 541, 1172, 1232], [99, 138, 394, 542, 1173, 1233], [100, 139, 395, 543, 1174, 1234], [101, 140, 396, 544, 1175, 1235],
  [102, 141, 397, 545, 1176, 1236], [103, 142, 398, 546, 1177, 1237], [104, 143, 399, 547, 1178, 1238], [105, 144, 400, 548, 1179, 1239],
  [106, 145, 401, 549, 1180, 1240], [107, 146, 402, 550, 1181, 1241], [108, 147, 403, 551, 1182, 1242], [109, 148, 404, 552, 1183, 1243],
  [110, 149, 405, 553, 1184, 1244], [111, 150, 406, 554, 1185, 1245], [112, 151, 407, 555, 1186, 1246], [113, 152, 408, 556, 1187, 1247],
  [114, 153, 409, 557, 1188, 1248], [115, 154, 410, 558, 1189, 1249], [116, 155, 411, 559, 1190, 1250], [117, 156, 412, 560, 1191, 1251],
  [118, 157, 413, 561, 1192, 1252], [119, 158, 414, 562, 1193, 1253], [60, 159, 415, 563, 1194, 1254], [61, 160, 416, 564, 1195, 1255],
  [62, 161, 417, 565, 1196, 1256], [63, 162, 418, 566, 1197, 1257], [64, 163, 419, 567, 1198, 1258], [65, 164, 360, 568, 1199, 1259]]

/-- The checks listed in the design file (designs/ldpc/wimax/1440.720.txt:1445-2164), columns counted from 0, sorted. Part 9. -/
def wimax1440Checks9 : Checks := [
  [7, 291, 315, 446, 691, 1200, 1260], [8, 292, 316, 447, 692, 1201, 1261], [9, 293, 317, 448, 693, 1202, 1262], [10, 294, 318, 449, 694, 1203, 1263],
  [11, 295, 319, 450, 695, 1204, 1264], [12, 296, 320, 451, 696, 1205, 1265], [13, 297, 321, 452, 697, 1206, 1266],
  [14, 298, 322, 453, 698, 1207, 1267], [15, 299, 323, 454, 699, 1208, 1268], [16, 240, 324, 455, 700, 1209, 1269],
  [17, 241, 325, 456, 701, 1210, 1270], [18, 242, 326, 457, 702, 1211, 1271], [19, 243, 327, 458, 703, 1212, 1272],
  [20, 244, 328, 459, 704, 1213, 1273], [21, 245, 329, 460, 705, 1214, 1274], [22, 246, 330, 461, 706, 1215, 1275],
  [23, 247, 331, 462, 707, 1216, 1276], [24, 248, 332, 463, 708, 1217, 1277], [25, 249, 333, 464, 709, 1218, 1278],
  [26, 250, 334, 465, 710, 1219, 1279], [27, 251, 335, 466, 711, 1220, 1280], [28, 252, 336, 467, 712, 1221, 1281],
  [29, 253, 337, 468, 713, 1222, 1282], [30, 254, 338, 469, 714, 1223, 1283], [31, 255, 339, 470, 715, 1224, 1284],
  [32, 256, 340, 471, 716, 1225, 1285], [33, 257, 341, 472, 717, 1226, 1286], [34, 258, 342, 473, 718, 1227, 1287],
  [35, 259, 343, 474, 719, 1228, 1288], [36, 260, 344, 475, 660, 1229, 1289], [37, 261, 345, 476, 661, 1230, 1290],
  [38, 262, 346, 477, 662, 1231, 1291], [39, 263, 347, 478, 663, 1232, 1292], [40, 264, 348, 479, 664, 1233, 1293],
  [41, 265, 349, 420, 665, 1234, 1294], [42, 266, 350, 421, 666, 1235, 1295], [43, 267, 351, 422, 667, 1236, 1296],
  [44, 268, 352, 423, 668, 1237, 1297], [45, 269, 353, 424, 669, 1238, 1298], [46, 270, 354, 425, 670, 1239, 1299],
  [47, 271, 355, 426, 671, 1240, 1300], [48, 272, 356, 427, 672, 1241, 1301], [49, 273, 357, 428, 673, 1242, 1302],
  [50, 274, 358, 429, 674, 1243, 1303], [51, 275, 359, 430, 675, 1244, 1304], [52, 276, 300, 431, 676, 1245, 1305],
  [53, 277, 301, 432, 677, 1246, 1306], [54, 278, 302, 433, 678, 1247, 1307], [55, 279, 303, 434, 679, 1248, 1308],
  [56, 280, 304, 435, 680, 1249, 1309], [57, 281, 305, 436, 681, 1250, 1310], [58, 282, 306, 437, 682, 1251, 1311],
  [59, 283, 307, 438, 683, 1252, 1312], [0, 284, 308, 439, 684, 1253, 1313], [1, 285, 309, 440, 685, 1254, 1314], [2, 286, 310, 441, 686, 1255, 1315],
  [3, 287, 311, 442, 687, 1256, 1316], [4, 288, 312, 443, 688, 1257, 1317], [5, 289, 313, 444, 689, 1258, 1318], [6, 290, 314, 445, 690, 1259, 1319]]

/-- The checks listed in the design file (designs/ldpc/wimax/1440.720.txt:1445-2164), columns counted from 0, sorted. Part 10. -/
def wimax1440Checks10 : Checks := [
  [358, 456, 643, 705, 1260, 1320], [359, 457, 644, 706, 1261, 1321], [300, 458, 645, 707, 1262, 1322], [301, 459, 646, 708, 1263, 1323],
  [302, 460, 647, 709, 1264, 1324], [303, 461, 648, 710, 1265, 1325], [304, 462, 649, 711, 1266, 1326], [305, 463, 650, 712, 1267, 1327],
  [306, 464, 651, 713, 1268, 1328], [307, 465, 652, 714, 1269, 1329], [308, 466, 653, 715, 1270, 1330], [309, 467, 654, 716, 1271, 1331],
  [310, 468, 655, 717, 1272, 1332], [311, 469, 656, 718, 1273, 1333], [312, 470, 657, 719, 1274, 1334], [313, 471, 658, 660, 1275, 1335],
  [314, 472, 659, 661, 1276, 1336], [315, 473, 600, 662, 1277, 1337], [316, 474, 601, 663, 1278, 1338], [317, 475, 602, 664, 1279, 1339],
  [318, 476, 603, 665, 1280, 1340], [319, 477, 604, 666, 1281, 1341], [320, 478, 605, 667, 1282, 1342], [321, 479, 606, 668, 1283, 1343],
  [322, 420, 607, 669, 1284, 1344], [323, 421, 608, 670, 1285, 1345], [324, 422, 609, 671, 1286, 1346], [325, 423, 610, 672, 1287, 1347],
  [326, 424, 611, 673, 1288, 1348], [327, 425, 612, 674, 1289, 1349], [328, 426, 613, 675, 1290, 1350], [329, 427, 614, 676, 1291, 1351],
  [330, 428, 615, 677, 1292, 1352], [331, 429, 616, 678, 1293, 1353], [332, 430, 617, 679, 1294, 1354], [333, 431, 618, 680, 1295, 1355],
  [334, 432, 619, 681, 1296, 1356], [335, 433, 620, 682, 1297, 1357], [336, 434, 621, 683, 1298, 1358], [337, 435, 622, 684, 1299, 1359],
  [338, 436, 623, 685, 1300, 1360], [339, 437, 624, 686, 1301, 1361], [340, 438, 625, 687, 1302, 1362], [341, 439, 626, 688, 1303, 1363],
  [342, 440, 627, 689, 1304, 1364], [343, 441, 628, 690, 1305, 1365], [344, 442, 629, 691, 1306, 1366], [345, 443, 630, 692, 1307, 1367],
  [346, 444, 631, 693, 1308, 1368], [347, 445, 632, 694, 1309, 1369], [348, 446, 633, 695, 1310, 1370], [349, 447, 634, 696, 1311, 1371],
  [350, 448, 635, 697, 1312, 1372], [351, 449, 636, 698, 1313, 1373], [352, 450, 637, 699, 1314, 1374], [353, 451, 638, 700, 1315, 1375],
  [354, 452, 639, 701, 1316, 1376], [355, 453, 640, 702, 1317, 1377], [356, 454, 641, 703, 1318, 1378], [357, 455, 642, 704, 1319, 1379]]

/-- The checks listed in the design file (designs/ldpc/wimax/1440.720.txt:1445-2164), columns counted from 0, sorted. Part 11. -/
def wimax1440Checks11 : Checks := [
  [124, 220, 504, 570, 1320, 1380], [125, 221, 505, 571, 1321, 1381], [126, 222, 506, 572, 1322, 1382], [127, 223, 507, 573, 1323, 1383],
  [128, 224, 508, 574, 1324, 1384], [129, 225, 509, 575, 1325, 1385], [130, 226, 510, 576, 1326, 1386], [131, 227, 511, 577, 1327, 1387],
  [132, 228, 512, 578, 1328, 1388], [133, 229, 513, 579, 1329, 1389], [134, 230, 514, 580, 1330, 1390], [135, 231, 515, 581, 1331, 1391],
  [136, 232, 516, 582, 1332, 1392], [137, 233, 517, 583, 1333, 1393], [138, 234, 518, 584, 1334, 1394], [139, 235, 519, 585, 1335, 1395],
  [140, 236, 520, 586, 1336, 1396], [141, 237, 521, 587, 1337, 1397], [142, 238, 522, 588, 1338, 1398], [143, 239, 523, 589, 1339, 1399],
  [144, 180, 524, 590, 1340, 1400], [145, 181, 525, 591, 1341, 1401], [146, 182, 526, 592, 1342, 1402], [147, 183, 527, 593, 1343, 1403],
  [148, 184, 528, 594, 1344, 1404], [149, 185, 529, 595, 1345, 1405], [150, 186, 530, 596, 1346, 1406], [151, 187, 531, 597, 1347, 1407],
  [152, 188, 532, 598, 1348, 1408], [153, 189, 533, 599, 1349, 1409], [154, 190, 534, 540, 1350, 1410], [155, 191, 535, 541, 1351, 1411],
  [156, 192, 536, 542, 1352, 1412], [157, 193, 537, 543, 1353, 1413], [158, 194, 538, 544, 1354, 1414], [159, 195, 539, 545, 1355, 1415],
  [160, 196, 480, 546, 1356, 1416], [161, 197, 481, 547, 1357, 1417], [162, 198, 482, 548, 1358, 1418], [163, 199, 483, 549, 1359, 1419],
  [164, 200, 484, 550, 1360, 1420], [165, 201, 485, 551, 1361, 1421], [166, 202, 486, 552, 1362, 1422], [167, 203, 487, 553, 1363, 1423],
  [168, 204, 488, 554, 1364, 1424], [169, 205, 489, 555, 1365, 1425], [170, 206, 490, 556, 1366, 1426], [171, 207, 491, 557, 1367, 1427],
  [172, 208, 492, 558, 1368, 1428], [173, 209, 493, 559, 1369, 1429], [174, 210, 494, 560, 1370, 1430], [175, 211, 495, 561, 1371, 1431],
  [176, 212, 496, 562, 1372, 1432], [177, 213, 497, 563, 1373, 1433], [178, 214, 498, 564, 1374, 1434], [179, 215, 499, 565, 1375, 1435],
  [120, 216, 500, 566, 1376, 1436], [121, 217, 501, 567, 1377, 1437], [122, 218, 502, 568, 1378, 1438], [123, 219, 503, 569, 1379, 1439]]

/-- The checks listed in the design file (designs/ldpc/wimax/1440.720.txt:1445-2164), columns counted from 0, sorted. Part 12. -/
def wimax1440Checks12 : Checks := [
  [26, 341, 445, 676, 724, 1380], [27, 342, 446, 677, 725, 1381], [28, 343, 447, 678, 726, 1382], [29, 344, 448, 679, 727, 1383],
  [30, 345, 449, 680, 728, 1384], [31, 346, 450, 681, 729, 1385], [32, 347, 451, 682, 730, 1386], [33, 348, 452, 683, 731, 1387],
  [34, 349, 453, 684, 732, 1388], [35, 350, 454, 685, 733, 1389], [36, 351, 455, 686, 734, 1390], [37, 352, 456, 687, 735, 1391],
  [38, 353, 457, 688, 736, 1392], [39, 354, 458, 689, 737, 1393], [40, 355, 459, 690, 738, 1394], [41, 356, 460, 691, 739, 1395],
  [42, 357, 461, 692, 740, 1396], [43, 358, 462, 693, 741, 1397], [44, 359, 463, 694, 742, 1398], [45, 300, 464, 695, 743, 1399],
  [46, 301, 465, 696, 744, 1400], [47, 302, 466, 697, 745, 1401], [48, 303, 467, 698, 746, 1402], [49, 304, 468, 699, 747, 1403],
  [50, 305, 469, 700, 748, 1404], [51, 306, 470, 701, 749, 1405], [52, 307, 471, 702, 750, 1406], [53, 308, 472, 703, 751, 1407],
  [54, 309, 473, 704, 752, 1408], [55, 310, 474, 705, 753, 1409], [56, 311, 475, 706, 754, 1410], [57, 312, 476, 707, 755, 1411],
  [58, 313, 477, 708, 756, 1412], [59, 314, 478, 709, 757, 1413], [0, 315, 479, 710, 758, 1414], [1, 316, 420, 711, 759, 1415],
  [2, 317, 421, 712, 760, 1416], [3, 318, 422, 713, 761, 1417], [4, 319, 423, 714, 762, 1418], [5, 320, 424, 715, 763, 1419],
  [6, 321, 425, 716, 764, 1420], [7, 322, 426, 717, 765, 1421], [8, 323, 427, 718, 766, 1422], [9, 324, 428, 719, 767, 1423],
  [10, 325, 429, 660, 768, 1424], [11, 326, 430, 661, 769, 1425], [12, 327, 431, 662, 770, 1426], [13, 328, 432, 663, 771, 1427],
  [14, 329, 433, 664, 772, 1428], [15, 330, 434, 665, 773, 1429], [16, 331, 435, 666, 774, 1430], [17, 332, 436, 667, 775, 1431],
  [18, 333, 437, 668, 776, 1432], [19, 334, 438, 669, 777, 1433], [20, 335, 439, 670, 778, 1434], [21, 336, 440, 671, 779, 1435],
  [22, 337, 441, 672, 720, 1436], [23, 338, 442, 673, 721, 1437], [24, 339, 443, 674, 722, 1438], [25, 340, 444, 675, 723, 1439]]

/-- The checks listed in the design file (designs/ldpc/wimax/1440.720.txt:1445-2164), columns counted from 0, sorted. -/
def wimax1440Checks : Checks :=
  wimax1440Checks1 ++ wimax1440Checks2 ++ wimax1440Checks3 ++ wimax1440Checks4 ++ wimax1440Checks5 ++ wimax1440Checks6 ++ wimax1440Checks7 ++ wimax1440Checks8 ++ wimax1440Checks9 ++ wimax1440Checks10 ++ wimax1440Checks11 ++ wimax1440Checks12

/-- Certificate that the last 720 columns are invertible over the integers. Part 1. -/
def wimax1440Cert1 : List (List (Int × Nat) × Nat) := [
  ([(-1, 3), (-1, 123), (-1, 243), (-1, 363), (-1, 483), (-1, 603), (1, 63), (1, 183), (1, 303), (1, 423), (1, 543), (1, 663)], 3),
  ([(-1, 59), (-1, 179), (-1, 299), (1, 119), (1, 239)], 359), ([(-1, 419), (-1, 539), (-1, 659), (1, 359), (1, 479), (1, 599), (1, 719)], 59),
  ([(-1, 55), (-1, 175), (-1, 295), (1, 115), (1, 235)], 355), ([(-1, 415), (-1, 535), (-1, 655), (1, 355), (1, 475), (1, 595), (1, 715)], 55),
  ([(-1, 51), (-1, 171), (-1, 291), (1, 111), (1, 231)], 351), ([(-1, 411), (-1, 531), (-1, 651), (1, 351), (1, 471), (1, 591), (1, 711)], 51),
  ([(-1, 47), (-1, 167), (-1, 287), (1, 107), (1, 227)], 347), ([(-1, 407), (-1, 527), (-1, 647), (1, 347), (1, 467), (1, 587), (1, 707)], 47),
  ([(-1, 43), (-1, 163), (-1, 283), (1, 103), (1, 223)], 343), ([(-1, 403), (-1, 523), (-1, 643), (1, 343), (1, 463), (1, 583), (1, 703)], 43),
  ([(-1, 39), (-1, 159), (-1, 279), (1, 99), (1, 219)], 339), ([(-1, 399), (-1, 519), (-1, 639), (1, 339), (1, 459), (1, 579), (1, 699)], 39),
  ([(-1, 35), (-1, 155), (-1, 275), (1, 95), (1, 215)], 335), ([(-1, 395), (-1, 515), (-1, 635), (1, 335), (1, 455), (1, 575), (1, 695)], 35),
  ([(-1, 31), (-1, 151), (-1, 271), (1, 91), (1, 211)], 331), ([(-1, 391), (-1, 511), (-1, 631), (1, 331), (1, 451), (1, 571), (1, 691)], 31),
  ([(-1, 27), (-1, 147), (-1, 267), (1, 87), (1, 207)], 327), ([(-1, 387), (-1, 507), (-1, 627), (1, 327), (1, 447), (1, 567), (1, 687)], 27),
  ([(-1, 23), (-1, 143), (-1, 263), (1, 83), (1, 203)], 323), ([(-1, 383), (-1, 503), (-1, 623), (1, 323), (1, 443), (1, 563), (1, 683)], 23),
  ([(-1, 19), (-1, 139), (-1, 259), (1, 79), (1, 199)], 319), ([(-1, 379), (-1, 499), (-1, 619), (1, 319), (1, 439), (1, 559), (1, 679)], 19),
  ([(-1, 15), (-1, 135), (-1, 255), (1, 75), (1, 195)], 315), ([(-1, 375), (-1, 495), (-1, 615), (1, 315), (1, 435), (1, 555), (1, 675)], 15),
  ([(-1, 11), (-1, 131), (-1, 251), (1, 71), (1, 191)], 311), ([(-1, 371), (-1, 491), (-1, 611), (1, 311), (1, 431), (1, 551), (1, 671)], 11),
  ([(-1, 7), (-1, 127), (-1, 247), (1, 67), (1, 187)], 307), ([(-1, 367), (-1, 487), (-1, 607), (1, 307), (1, 427), (1, 547), (1, 667)], 7),
  ([(-1, 3), (-1, 123), (-1, 243), (1, 63), (1, 183)], 303),
  ([(-1, 2), (-1, 122), (-1, 242), (-1, 362), (-1, 482), (-1, 602), (1, 62), (1, 182), (1, 302), (1, 422), (1, 542), (1, 662)], 2),
  ([(-1, 58), (-1, 178), (-1, 298), (1, 118), (1, 238)], 358), ([(-1, 418), (-1, 538), (-1, 658), (1, 358), (1, 478), (1, 598), (1, 718)], 58),
  ([(-1, 54), (-1, 174), (-1, 294), (1, 114), (1, 234)], 354), ([(-1, 414), (-1, 534), (-1, 654), (1, 354), (1, 474), (1, 594), (1, 714)], 54),
  ([(-1, 50), (-1, 170), (-1, 290), (1, 110), (1, 230)], 350), ([(-1, 410), (-1, 530), (-1, 650), (1, 350), (1, 470), (1, 590), (1, 710)], 50),
  ([(-1, 46), (-1, 166), (-1, 286), (1, 106), (1, 226)], 346), ([(-1, 406), (-1, 526), (-1, 646), (1, 346), (1, 466), (1, 586), (1, 706)], 46),
  ([(-1, 42), (-1, 162), (-1, 282), (1, 102), (1, 222)], 342), ([(-1, 402), (-1, 522), (-1, 642), (1, 342), (1, 462), (1, 582), (1, 702)], 42),
  ([(-1, 38), (-1, 158), (-1, 278), (1, 98), (1, 218)], 338), ([(-1, 398), (-1, 518), (-1, 638), (1, 338), (1, 458), (1, 578), (1, 698)], 38),
  ([(-1, 34), (-1, 154), (-1, 274), (1, 94), (1, 214)], 334), ([(-1, 394), (-1, 514), (-1, 634), (1, 334), (1, 454), (1, 574), (1, 694)], 34),
  ([(-1, 30), (-1, 150), (-1, 270), (1, 90), (1, 210)], 330), ([(-1, 390), (-1, 510), (-1, 630), (1, 330), (1, 450), (1, 570), (1, 690)], 30),
  ([(-1, 26), (-1, 146), (-1, 266), (1, 86), (1, 206)], 326), ([(-1, 386), (-1, 506), (-1, 626), (1, 326), (1, 446), (1, 566), (1, 686)], 26),
  ([(-1, 22), (-1, 142), (-1, 262), (1, 82), (1, 202)], 322), ([(-1, 382), (-1, 502), (-1, 622), (1, 322), (1, 442), (1, 562), (1, 682)], 22),
  ([(-1, 18), (-1, 138), (-1, 258), (1, 78), (1, 198)], 318), ([(-1, 378), (-1, 498), (-1, 618), (1, 318), (1, 438), (1, 558), (1, 678)], 18),
  ([(-1, 14), (-1, 134), (-1, 254), (1, 74), (1, 194)], 314), ([(-1, 374), (-1, 494), (-1, 614), (1, 314), (1, 434), (1, 554), (1, 674)], 14),
  ([(-1, 10), (-1, 130), (-1, 250), (1, 70), (1, 190)], 310), ([(-1, 370), (-1, 490), (-1, 610), (1, 310), (1, 430), (1, 550), (1, 670)], 10),
  ([(-1, 6), (-1, 126), (-1, 246), (1, 66), (1, 186)], 306), ([(-1, 366), (-1, 486), (-1, 606), (1, 306), (1, 426), (1, 546), (1, 666)], 6),
  ([(-1, 2), (-1, 122), (-1, 242), (1, 62), (1, 182)], 302)]

/-- Certificate that the last 720 columns are invertible over the integers. Part 2. -/
def wimax1440Cert2 : List (List (Int × Nat) × Nat) := [
  ([(-1, 1), (-1, 121), (-1, 241), (-1, 361), (-1, 481), (-1, 601), (1, 61), (1, 181), (1, 301), (1, 421), (1, 541), (1, 661)], 1),
  ([(-1, 57), (-1, 177), (-1, 297), (1, 117), (1, 237)], 357), ([(-1, 417), (-1, 537), (-1, 657), (1, 357), (1, 477), (1, 597), (1, 717)], 57),
  ([(-1, 53), (-1, 173), (-1, 293), (1, 113), (1, 233)], 353), ([(-1, 413), (-1, 533), (-1, 653), (1, 353), (1, 473), (1, 593), (1, 713)], 53),
  ([(-1, 49), (-1, 169), (-1, 289), (1, 109), (1, 229)], 349), ([(-1, 409), (-1, 529), (-1, 649), (1, 349), (1, 469), (1, 589), (1, 709)], 49),
  ([(-1, 45), (-1, 165), (-1, 285), (1, 105), (1, 225)], 345), ([(-1, 405), (-1, 525), (-1, 645), (1, 345), (1, 465), (1, 585), (1, 705)], 45),
  ([(-1, 41), (-1, 161), (-1, 281), (1, 101), (1, 221)], 341), ([(-1, 401), (-1, 521), (-1, 641), (1, 341), (1, 461), (1, 581), (1, 701)], 41),
  ([(-1, 37), (-1, 157), (-1, 277), (1, 97), (1, 217)], 337), ([(-1, 397), (-1, 517), (-1, 637), (1, 337), (1, 457), (1, 577), (1, 697)], 37),
  ([(-1, 33), (-1, 153), (-1, 273), (1, 93), (1, 213)], 333), ([(-1, 393), (-1, 513), (-1, 633), (1, 333), (1, 453), (1, 573), (1, 693)], 33),
  ([(-1, 29), (-1, 149), (-1, 269), (1, 89), (1, 209)], 329), ([(-1, 389), (-1, 509), (-1, 629), (1, 329), (1, 449), (1, 569), (1, 689)], 29),
  ([(-1, 25), (-1, 145), (-1, 265), (1, 85), (1, 205)], 325), ([(-1, 385), (-1, 505), (-1, 625), (1, 325), (1, 445), (1, 565), (1, 685)], 25),
  ([(-1, 21), (-1, 141), (-1, 261), (1, 81), (1, 201)], 321), ([(-1, 381), (-1, 501), (-1, 621), (1, 321), (1, 441), (1, 561), (1, 681)], 21),
  ([(-1, 17), (-1, 137), (-1, 257), (1, 77), (1, 197)], 317), ([(-1, 377), (-1, 497), (-1, 617), (1, 317), (1, 437), (1, 557), (1, 677)], 17),
  ([(-1, 13), (-1, 133), (-1, 253), (1, 73), (1, 193)], 313), ([(-1, 373), (-1, 493), (-1, 613), (1, 313), (1, 433), (1, 553), (1, 673)], 13),
  ([(-1, 9), (-1, 129), (-1, 249), (1, 69), (1, 189)], 309), ([(-1, 369), (-1, 489), (-1, 609), (1, 309), (1, 429), (1, 549), (1, 669)], 9),
  ([(-1, 5), (-1, 125), (-1, 245), (1, 65), (1, 185)], 305), ([(-1, 365), (-1, 485), (-1, 605), (1, 305), (1, 425), (1, 545), (1, 665)], 5),
  ([(-1, 1), (-1, 121), (-1, 241), (1, 61), (1, 181)], 301),
  ([(-1, 0), (-1, 120), (-1, 240), (-1, 360), (-1, 480), (-1, 600), (1, 60), (1, 180), (1, 300), (1, 420), (1, 540), (1, 660)], 0),
  ([(-1, 56), (-1, 176), (-1, 296), (1, 116), (1, 236)], 356), ([(-1, 416), (-1, 536), (-1, 656), (1, 356), (1, 476), (1, 596), (1, 716)], 56),
  ([(-1, 52), (-1, 172), (-1, 292), (1, 112), (1, 232)], 352), ([(-1, 412), (-1, 532), (-1, 652), (1, 352), (1, 472), (1, 592), (1, 712)], 52),
  ([(-1, 48), (-1, 168), (-1, 288), (1, 108), (1, 228)], 348), ([(-1, 408), (-1, 528), (-1, 648), (1, 348), (1, 468), (1, 588), (1, 708)], 48),
  ([(-1, 44), (-1, 164), (-1, 284), (1, 104), (1, 224)], 344), ([(-1, 404), (-1, 524), (-1, 644), (1, 344), (1, 464), (1, 584), (1, 704)], 44),
  ([(-1, 40), (-1, 160), (-1, 280), (1, 100), (1, 220)], 340), ([(-1, 400), (-1, 520), (-1, 640), (1, 340), (1, 460), (1, 580), (1, 700)], 40),
  ([(-1, 36), (-1, 156), (-1, 276), (1, 96), (1, 216)], 336), ([(-1, 396), (-1, 516), (-1, 636), (1, 336), (1, 456), (1, 576), (1, 696)], 36),
  ([(-1, 32), (-1, 152), (-1, 272), (1, 92), (1, 212)], 332), ([(-1, 392), (-1, 512), (-1, 632), (1, 332), (1, 452), (1, 572), (1, 692)], 32),
  ([(-1, 28), (-1, 148), (-1, 268), (1, 88), (1, 208)], 328), ([(-1, 388), (-1, 508), (-1, 628), (1, 328), (1, 448), (1, 568), (1, 688)], 28),
  ([(-1, 24), (-1, 144), (-1, 264), (1, 84), (1, 204)], 324), ([(-1, 384), (-1, 504), (-1, 624), (1, 324), (1, 444), (1, 564), (1, 684)], 24),
  ([(-1, 20), (-1, 140), (-1, 260), (1, 80), (1, 200)], 320), ([(-1, 380), (-1, 500), (-1, 620), (1, 320), (1, 440), (1, 560), (1, 680)], 20),
  ([(-1, 16), (-1, 136), (-1, 256), (1, 76), (1, 196)], 316), ([(-1, 376), (-1, 496), (-1, 616), (1, 316), (1, 436), (1, 556), (1, 676)], 16),
  ([(-1, 12), (-1, 132), (-1, 252), (1, 72), (1, 192)], 312), ([(-1, 372), (-1, 492), (-1, 612), (1, 312), (1, 432), (1, 552), (1, 672)], 12),
  ([(-1, 8), (-1, 128), (-1, 248), (1, 68), (1, 188)], 308), ([(-1, 368), (-1, 488), (-1, 608), (1, 308), (1, 428), (1, 548), (1, 668)], 8),
  ([(-1, 4), (-1, 124), (-1, 244), (1, 64), (1, 184)], 304), ([(-1, 364), (-1, 484), (-1, 604), (1, 304), (1, 424), (1, 544), (1, 664)], 4),
  ([(-1, 0), (-1, 120), (-1, 240), (1, 60), (1, 180)], 300)]

/-- Certificate that the last 720 columns are invertible over the integers. Part 3. -/
def wimax1440Cert3 : List (List (Int × Nat) × Nat) := [
  ([(1, 719)], 719), ([(1, 718)], 718), ([(1, 717)], 717), ([(1, 716)], 716), ([(1, 715)], 715), ([(1, 714)], 714), ([(1, 713)], 713),
  ([(1, 712)], 712), ([(1, 711)], 711), ([(1, 710)], 710), ([(1, 709)], 709), ([(1, 708)], 708), ([(1, 707)], 707), ([(1, 706)], 706),
  ([(1, 705)], 705), ([(1, 704)], 704), ([(1, 703)], 703), ([(1, 702)], 702), ([(1, 701)], 701), ([(1, 700)], 700), ([(1, 699)], 699),
  ([(1, 698)], 698), ([(1, 697)], 697), ([(1, 696)], 696), ([(1, 695)], 695), ([(1, 694)], 694), ([(1, 693)], 693), ([(1, 692)], 692),
  ([(1, 691)], 691), ([(1, 690)], 690), ([(1, 689)], 689), ([(1, 688)], 688), ([(1, 687)], 687), ([(1, 686)], 686), ([(1, 685)], 685),
  ([(1, 684)], 684), ([(1, 683)], 683), ([(1, 682)], 682), ([(1, 681)], 681), ([(1, 680)], 680), ([(1, 679)], 679), ([(1, 678)], 678),
  ([(1, 677)], 677), ([(1, 676)], 676), ([(1, 675)], 675), ([(1, 674)], 674), ([(1, 673)], 673), ([(1, 672)], 672), ([(1, 671)], 671),
  ([(1, 670)], 670), ([(1, 669)], 669), ([(1, 668)], 668), ([(1, 667)], 667), ([(1, 666)], 666), ([(1, 665)], 665), ([(1, 664)], 664),
  ([(1, 663)], 663), ([(1, 662)], 662), ([(1, 661)], 661), ([(1, 660)], 660)]

/-- Certificate that the last 720 columns are invertible over the integers. Part 4. -/
def wimax1440Cert4 : List (List (Int × Nat) × Nat) := [
  ([(1, 659)], 659), ([(1, 658)], 658), ([(1, 657)], 657), ([(1, 656)], 656), ([(1, 655)], 655), ([(1, 654)], 654), ([(1, 653)], 653),
  ([(1, 652)], 652), ([(1, 651)], 651), ([(1, 650)], 650), ([(1, 649)], 649), ([(1, 648)], 648), ([(1, 647)], 647), ([(1, 646)], 646),
  ([(1, 645)], 645), ([(1, 644)], 644), ([(1, 643)], 643), ([(1, 642)], 642), ([(1, 641)], 641), ([(1, 640)], 640), ([(1, 639)], 639),
  ([(1, 638)], 638), ([(1, 637)], 637), ([(1, 636)], 636), ([(1, 635)], 635), ([(1, 634)], 634), ([(1, 633)], 633), ([(1, 632)], 632),
  ([(1, 631)], 631), ([(1, 630)], 630), ([(1, 629)], 629), ([(1, 628)], 628), ([(1, 627)], 627), ([(1, 626)], 626), ([(1, 625)], 625),
  ([(1, 624)], 624), ([(1, 623)], 623), ([(1, 622)], 622), ([(1, 621)], 621), ([(1, 620)], 620), ([(1, 619)], 619), ([(1, 618)], 618),
  ([(1, 617)], 617), ([(1, 616)], 616), ([(1, 615)], 615), ([(1, 614)], 614), ([(1, 613)], 613), ([(1, 612)], 612), ([(1, 611)], 611),
  ([(1, 610)], 610), ([(1, 609)], 609), ([(1, 608)], 608), ([(1, 607)], 607), ([(1, 606)], 606), ([(1, 605)], 605), ([(1, 604)], 604),
  ([(1, 603)], 603), ([(1, 602)], 602), ([(1, 601)], 601), ([(1, 600)], 600)]

/-- Certificate that the last 720 columns are invertible over the integers. Part 5. -/
def wimax1440Cert5 : List (List (Int × Nat) × Nat) := [
  ([(1, 599)], 599), ([(1, 598)], 598), ([(1, 597)], 597), ([(1, 596)], 596), ([(1, 595)], 595), ([(1, 594)], 594), ([(1, 593)], 593),
  ([(1, 592)], 592), ([(1, 591)], 591), ([(1, 590)], 590), ([(1, 589)], 589), ([(1, 588)], 588), ([(1, 587)], 587), ([(1, 586)], 586),
  ([(1, 585)], 585), ([(1, 584)], 584), ([(1, 583)], 583), ([(1, 582)], 582), ([(1, 581)], 581), ([(1, 580)], 580), ([(1, 579)], 579),
  ([(1, 578)], 578), ([(1, 577)], 577), ([(1, 576)], 576), ([(1, 575)], 575), ([(1, 574)], 574), ([(1, 573)], 573), ([(1, 572)], 572),
  ([(1, 571)], 571), ([(1, 570)], 570), ([(1, 569)], 569), ([(1, 568)], 568), ([(1, 567)], 567), ([(1, 566)], 566), ([(1, 565)], 565),
  ([(1, 564)], 564), ([(1, 563)], 563), ([(1, 562)], 562), ([(1, 561)], 561), ([(1, 560)], 560), ([(1, 559)], 559), ([(1, 558)], 558),
  ([(1, 557)], 557), ([(1, 556)], 556), ([(1, 555)], 555), ([(1, 554)], 554), ([(1, 553)], 553), ([(1, 552)], 552), ([(1, 551)], 551),
  ([(1, 550)], 550), ([(1, 549)], 549), ([(1, 548)], 548), ([(1, 547)], 547), ([(1, 546)], 546), ([(1, 545)], 545), ([(1, 544)], 544),
  ([(1, 543)], 543), ([(1, 542)], 542), ([(1, 541)], 541), ([(1, 540)], 540)]

/-- Certificate that the last 720 columns are invertible over the integers. Part 6. -/
def wimax1440Cert6 : List (List (Int × Nat) × Nat) := [
  ([(1, 539)], 539), ([(1, 538)], 538), ([(1, 537)], 537), ([(1, 536)], 536), ([(1, 535)], 535), ([(1, 534)], 534), ([(1, 533)], 533),
  ([(1, 532)], 532), ([(1, 531)], 531), ([(1, 530)], 530), ([(1, 529)], 529), ([(1, 528)], 528), ([(1, 527)], 527), ([(1, 526)], 526),
  ([(1, 525)], 525), ([(1, 524)], 524), ([(1, 523)], 523), ([(1, 522)], 522), ([(1, 521)], 521), ([(1, 520)], 520), ([(1, 519)], 519),
  ([(1, 518)], 518), ([(1, 517)], 517), ([(1, 516)], 516), ([(1, 515)], 515), ([(1, 514)], 514), ([(1, 513)], 513), ([(1, 512)], 512),
  ([(1, 511)], 511), ([(1, 510)], 510), ([(1, 509)], 509), ([(1, 508)], 508), ([(1, 507)], 507), ([(1, 506)], 506), ([(1, 505)], 505),
  ([(1, 504)], 504), ([(1, 503)], 503), ([(1, 502)], 502), ([(1, 501)], 501), ([(1, 500)], 500), ([(1, 499)], 499), ([(1, 498)], 498),
  ([(1, 497)], 497), ([(1, 496)], 496), ([(1, 495)], 495), ([(1, 494)], 494), ([(1, 493)], 493), ([(1, 492)], 492), ([(1, 491)], 491),
  ([(1, 490)], 490), ([(1, 489)], 489), ([(1, 488)], 488), ([(1, 487)], 487), ([(1, 486)], 486), ([(1, 485)], 485), ([(1, 484)], 484),
  ([(1, 483)], 483), ([(1, 482)], 482), ([(1, 481)], 481), ([(1, 480)], 480)]

/-- Certificate that the last 720 columns are invertible over the integers. Part 7. -/
def wimax1440Cert7 : List (List (Int × Nat) × Nat) := [
  ([(1, 479)], 479), ([(1, 478)], 478), ([(1, 477)], 477), ([(1, 476)], 476), ([(1, 475)], 475), ([(1, 474)], 474), ([(1, 473)], 473),
  ([(1, 472)], 472), ([(1, 471)], 471), ([(1, 470)], 470), ([(1, 469)], 469), ([(1, 468)], 468), ([(1, 467)], 467), ([(1, 466)], 466),
  ([(1, 465)], 465), ([(1, 464)], 464), ([(1, 463)], 463), ([(1, 462)], 462), ([(1, 461)], 461), ([(1, 460)], 460), ([(1, 459)], 459),
  ([(1, 458)], 458), ([(1, 457)], 457), ([(1, 456)], 456), ([(1, 455)], 455), ([(1, 454)], 454), ([(1, 453)], 453), ([(1, 452)], 452),
  ([(1, 451)], 451), ([(1, 450)], 450), ([(1, 449)], 449), ([(1, 448)], 448), ([(1, 447)], 447), ([(1, 446)], 446), ([(1, 445)], 445),
  ([(1, 444)], 444), ([(1, 443)], 443), ([(1, 442)], 442), ([(1, 441)], 441), ([(1, 440)], 440), ([(1, 439)], 439), ([(1, 438)], 438),
  ([(1, 437)], 437), ([(1, 436)], 436), ([(1, 435)], 435), ([(1, 434)], 434), ([(1, 433)], 433), ([(1, 432)], 432), ([(1, 431)], 431),
  ([(1, 430)], 430), ([(1, 429)], 429), ([(1, 428)], 428), ([(1, 427)], 427), ([(1, 426)], 426), ([(1, 425)], 425), ([(1, 424)], 424),
  ([(1, 423)], 423), ([(1, 422)], 422), ([(1, 421)], 421), ([(1, 420)], 420)]

/-- Certificate that the last 720 columns are invertible over the integers. Part 8. -/
def wimax1440Cert8 : List (List (Int × Nat) × Nat) := [
  ([(1, 419)], 419), ([(1, 418)], 418), ([(1, 417)], 417), ([(1, 416)], 416), ([(1, 415)], 415), ([(1, 414)], 414), ([(1, 413)], 413),
  ([(1, 412)], 412), ([(1, 411)], 411), ([(1, 410)], 410), ([(1, 409)], 409), ([(1, 408)], 408), ([(1, 407)], 407), ([(1, 406)], 406),
  ([(1, 405)], 405), ([(1, 404)], 404), ([(1, 403)], 403), ([(1, 402)], 402), ([(1, 401)], 401), ([(1, 400)], 400), ([(1, 399)], 399),
  ([(1, 398)], 398), ([(1, 397)], 397), ([(1, 396)], 396), ([(1, 395)], 395), ([(1, 394)], 394), ([(1, 393)], 393), ([(1, 392)], 392),
  ([(1, 391)], 391), ([(1, 390)], 390), ([(1, 389)], 389), ([(1, 388)], 388), ([(1, 387)], 387), ([(1, 386)], 386), ([(1, 385)], 385),
  ([(1, 384)], 384), ([(1, 383)], 383), ([(1, 382)], 382), ([(1, 381)], 381), ([(1, 380)], 380), ([(1, 379)], 379), ([(1, 378)], 378),
  ([(1, 377)], 377), ([(1, 376)], 376), ([(1, 375)], 375), ([(1, 374)], 374), ([(1, 373)], 373), ([(1, 372)], 372), ([(1, 371)], 371),
  ([(1, 370)], 370), ([(1, 369)], 369), ([(1, 368)], 368), ([(1, 367)], 367), ([(1, 366)], 366), ([(1, 365)], 365), ([(1, 364)], 364),
  ([(1, 363)], 363), ([(1, 362)], 362), ([(1, 361)], 361), ([(1, 360)], 360)]

/-- Certificate that the last 720 columns are invertible over the integers. Part 9. -/
def wimax1440Cert9 : List (List (Int × Nat) × Nat) := [
  ([(1, 299)], 299), ([(1, 298)], 298), ([(1, 297)], 297), ([(1, 296)], 296), ([(1, 295)], 295), ([(1, 294)], 294), ([(1, 293)], 293),
  ([(1, 292)], 292), ([(1, 291)], 291), ([(1, 290)], 290), ([(1, 289)], 289), ([(1, 288)], 288), ([(1, 287)], 287), ([(1, 286)], 286),
  ([(1, 285)], 285), ([(1, 284)], 284), ([(1, 283)], 283), ([(1, 282)], 282), ([(1, 281)], 281), ([(1, 280)], 280), ([(1, 279)], 279),
  ([(1, 278)], 278), ([(1, 277)], 277), ([(1, 276)], 276), ([(1, 275)], 275), ([(1, 274)], 274), ([(1, 273)], 273), ([(1, 272)], 272),
  ([(1, 271)], 271), ([(1, 270)], 270), ([(1, 269)], 269), ([(1, 268)], 268), ([(1, 267)], 267), ([(1, 266)], 266), ([(1, 265)], 265),
  ([(1, 264)], 264), ([(1, 263)], 263), ([(1, 262)], 262), ([(1, 261)], 261), ([(1, 260)], 260), ([(1, 259)], 259), ([(1, 258)], 258),
  ([(1, 257)], 257), ([(1, 256)], 256), ([(1, 255)], 255), ([(1, 254)], 254), ([(1, 253)], 253), ([(1, 252)], 252), ([(1, 251)], 251),
  ([(1, 250)], 250), ([(1, 249)], 249), ([(1, 248)], 248), ([(1, 247)], 247), ([(1, 246)], 246), ([(1, 245)], 245), ([(1, 244)], 244),
  ([(1, 243)], 243), ([(1, 242)], 242), ([(1, 241)], 241), ([(1, 240)], 240)]

/-- Certificate that the last 720 columns are invertible over the integers. Part 10. -/
def wimax1440Cert10 : List (List (Int × Nat) × Nat) := [
  ([(1, 239)], 239), ([(1, 238)], 238), ([(1, 237)], 237), ([(1, 236)], 236), ([(1, 235)], 235), ([(1, 234)], 234), ([(1, 233)], 233),
  ([(1, 232)], 232), ([(1, 231)], 231), ([(1, 230)], 230), ([(1, 229)], 229), ([(1, 228)], 228), ([(1, 227)], 227), ([(1, 226)], 226),
  ([(1, 225)], 225), ([(1, 224)], 224), ([(1, 223)], 223), ([(1, 222)], 222), ([(1, 221)], 221), ([(1, 220)], 220), ([(1, 219)], 219),
  ([(1, 218)], 218), ([(1, 217)], 217), ([(1, 216)], 216), ([(1, 215)], 215), ([(1, 214)], 214), ([(1, 213)], 213), ([(1, 212)], 212),
  ([(1, 211)], 211), ([(1, 210)], 210), ([(1, 209)], 209), ([(1, 208)], 208), ([(1, 207)], 207), ([(1, 206)], 206), ([(1, 205)], 205),
  ([(1, 204)], 204), ([(1, 203)], 203), ([(1, 202)], 202), ([(1, 201)], 201), ([(1, 200)], 200), ([(1, 199)], 199), ([(1, 198)], 198),
  ([(1, 197)], 197), ([(1, 196)], 196), ([(1, 195)], 195), ([(1, 194)], 194), ([(1, 193)], 193), ([(1, 192)], 192), ([(1, 191)], 191),
  ([(1, 190)], 190), ([(1, 189)], 189), ([(1, 188)], 188), ([(1, 187)], 187), ([(1, 186)], 186), ([(1, 185)], 185), ([(1, 184)], 184),
  ([(1, 183)], 183), ([(1, 182)], 182), ([(1, 181)], 181), ([(1, 180)], 180)]

/-- Certificate that the last 720 columns are invertible over the integers. Part 11. -/
def wimax1440Cert11 : List (List (Int × Nat) × Nat) := [
  ([(1, 179)], 179), ([(1, 178)], 178), ([(1, 177)], 177), ([(1, 176)], 176), ([(1, 175)], 175), ([(1, 174)], 174), ([(1, 173)], 173),
  ([(1, 172)], 172), ([(1, 171)], 171), ([(1, 170)], 170), ([(1, 169)], 169), ([(1, 168)], 168), ([(1, 167)], 167), ([(1, 166)], 166),
  ([(1, 165)], 165), ([(1, 164)], 164), ([(1, 163)], 163), ([(1, 162)], 162), ([(1, 161)], 161), ([(1, 160)], 160), ([(1, 159)], 159),
  ([(1, 158)], 158), ([(1, 157)], 157), ([(1, 156)], 156), ([(1, 155)], 155), ([(1, 154)], 154), ([(1, 153)], 153), ([(1, 152)], 152),
  ([(1, 151)], 151), ([(1, 150)], 150), ([(1, 149)], 149), ([(1, 148)], 148), ([(1, 147)], 147), ([(1, 146)], 146), ([(1, 145)], 145),
  ([(1, 144)], 144), ([(1, 143)], 143), ([(1, 142)], 142), ([(1, 141)], 141), ([(1, 140)], 140), ([(1, 139)], 139), ([(1, 138)], 138),
  ([(1, 137)], 137), ([(1, 136)], 136), ([(1, 135)], 135), ([(1, 134)], 134), ([(1, 133)], 133), ([(1, 132)], 132), ([(1, 131)], 131),
  ([(1, 130)], 130), ([(1, 129)], 129), ([(1, 128)], 128), ([(1, 127)], 127), ([(1, 126)], 126), ([(1, 125)], 125), ([(1, 124)], 124),
  ([(1, 123)], 123), ([(1, 122)], 122), ([(1, 121)], 121), ([(1, 120)], 120)]

/-- Certificate that the last 720 columns are invertible over the integers. Part 12. -/
def wimax1440Cert12 : List (List (Int × Nat) × Nat) := [
  ([(1, 59)], 119), ([(1, 58)], 118), ([(1, 57)], 117), ([(1, 56)], 116), ([(1, 55)], 115), ([(1, 54)], 114), ([(1, 53)], 113), ([(1, 52)], 112),
  ([(1, 51)], 111), ([(1, 50)], 110), ([(1, 49)], 109), ([(1, 48)], 108), ([(1, 47)], 107), ([(1, 46)], 106), ([(1, 45)], 105), ([(1, 44)], 104),
  ([(1, 43)], 103), ([(1, 42)], 102), ([(1, 41)], 101), ([(1, 40)], 100), ([(1, 39)], 99), ([(1, 38)], 98), ([(1, 37)], 97), ([(1, 36)], 96),
  ([(1, 35)], 95), ([(1, 34)], 94), ([(1, 33)], 93), ([(1, 32)], 92), ([(1, 31)], 91), ([(1, 30)], 90), ([(1, 29)], 89), ([(1, 28)], 88),
  ([(1, 27)], 87), ([(1, 26)], 86), ([(1, 25)], 85), ([(1, 24)], 84), ([(1, 23)], 83), ([(1, 22)], 82), ([(1, 21)], 81), ([(1, 20)], 80),
  ([(1, 19)], 79), ([(1, 18)], 78), ([(1, 17)], 77), ([(1, 16)], 76), ([(1, 15)], 75), ([(1, 14)], 74), ([(1, 13)], 73), ([(1, 12)], 72),
  ([(1, 11)], 71), ([(1, 10)], 70), ([(1, 9)], 69), ([(1, 8)], 68), ([(1, 7)], 67), ([(1, 6)], 66), ([(1, 5)], 65), ([(1, 4)], 64), ([(1, 3)], 63),
  ([(1, 2)], 62), ([(1, 1)], 61), ([(1, 0)], 60)]

/-- Certificate that the last 720 columns are invertible over the integers. -/
def wimax1440Cert : List (List (Int × Nat) × Nat) :=
  wimax1440Cert1 ++ wimax1440Cert2 ++ wimax1440Cert3 ++ wimax1440Cert4 ++ wimax1440Cert5 ++ wimax1440Cert6 ++ wimax1440Cert7 ++ wimax1440Cert8 ++ wimax1440Cert9 ++ wimax1440Cert10 ++ wimax1440Cert11 ++ wimax1440Cert12

end Verif
