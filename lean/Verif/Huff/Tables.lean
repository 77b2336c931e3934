import Verif.Huff.Model
/-
The frequency tables shipped with the codecs, symbols as numbers.
-/
namespace Verif.Huff

/-- delta2/header_freq_tables.py 5-92. -/
def requestTable : FreqTable :=
  [(0, 0), (1, 0), (2, 0), (3, 0), (4, 0), (5, 0), (6, 0), (7, 0), (8, 0), (9, 0), (10, 0), (11, 0),
   (12, 0), (13, 0), (14, 0), (15, 0), (16, 0), (17, 0), (18, 0), (19, 0), (20, 0), (21, 0),
   (22, 0), (23, 0), (24, 0), (25, 0), (26, 0), (27, 0), (28, 0), (29, 0), (30, 0), (31, 0),
   (32, 7610), (33, 930), (34, 202), (35, 134), (36, 123), (37, 44564), (38, 25746), (39, 103),
   (40, 1917), (41, 1958), (42, 3102), (43, 1031), (44, 7830), (45, 38776), (46, 61420),
   (47, 115378), (48, 78519), (49, 75265), (50, 83362), (51, 54510), (52, 37403), (53, 40823),
   (54, 35068), (55, 36398), (56, 33595), (57, 36340), (58, 5530), (59, 9240), (60, 16),
   (61, 42481), (62, 50), (63, 5865), (64, 205), (65, 16369), (66, 9310), (67, 11301), (68, 12701),
   (69, 7543), (70, 17618), (71, 5510), (72, 5226), (73, 6981), (74, 4233), (75, 3072), (76, 5795),
   (77, 8677), (78, 5276), (79, 6132), (80, 5241), (81, 4150), (82, 5655), (83, 8546), (84, 8826),
   (85, 5201), (86, 5305), (87, 6627), (88, 5961), (89, 4464), (90, 3212), (91, 266), (92, 0),
   (93, 275), (94, 149), (95, 34919), (96, 9), (97, 85465), (98, 32815), (99, 67786), (100, 50950),
   (101, 125495), (102, 33026), (103, 46142), (104, 30069), (105, 87001), (106, 21311),
   (107, 14902), (108, 55591), (109, 55290), (110, 64016), (111, 72711), (112, 57459), (113, 8956),
   (114, 60591), (115, 84899), (116, 90992), (117, 35484), (118, 16925), (119, 29268), (120, 14687),
   (121, 13536), (122, 7943), (123, 30), (124, 988), (125, 30), (126, 748), (127, 0), (128, 0),
   (129, 0), (130, 0), (131, 0), (132, 0), (133, 0), (134, 0), (135, 0), (136, 0), (137, 0),
   (138, 0), (139, 0), (140, 0), (141, 0), (142, 0), (143, 0), (144, 0), (145, 0), (146, 0),
   (147, 0), (148, 0), (149, 0), (150, 0), (151, 0), (152, 0), (153, 0), (154, 0), (155, 0),
   (156, 0), (157, 0), (158, 0), (159, 0), (160, 0), (161, 0), (162, 0), (163, 0), (164, 0),
   (165, 0), (166, 0), (167, 0), (168, 0), (169, 0), (170, 0), (171, 0), (172, 0), (173, 0),
   (174, 0), (175, 0), (176, 0), (177, 0), (178, 0), (179, 0), (180, 0), (181, 0), (182, 0),
   (183, 0), (184, 0), (185, 0), (186, 0), (187, 0), (188, 0), (189, 0), (190, 0), (191, 0),
   (192, 0), (193, 0), (194, 0), (195, 0), (196, 0), (197, 0), (198, 0), (199, 0), (200, 0),
   (201, 0), (202, 0), (203, 0), (204, 0), (205, 0), (206, 0), (207, 0), (208, 0), (209, 0),
   (210, 0), (211, 0), (212, 0), (213, 0), (214, 0), (215, 0), (216, 0), (217, 0), (218, 0),
   (219, 0), (220, 0), (221, 0), (222, 0), (223, 0), (224, 0), (225, 0), (226, 0), (227, 0),
   (228, 0), (229, 0), (230, 0), (231, 0), (232, 0), (233, 0), (234, 0), (235, 0), (236, 0),
   (237, 0), (238, 0), (239, 0), (240, 0), (241, 0), (242, 0), (243, 0), (244, 0), (245, 0),
   (246, 0), (247, 0), (248, 0), (249, 0), (250, 0), (251, 0), (252, 0), (253, 0), (254, 0),
   (255, 0), (256, 33889)]

/-- delta2/header_freq_tables.py 94-181. -/
def responseTable : FreqTable :=
  [(0, 0), (1, 0), (2, 0), (3, 0), (4, 0), (5, 0), (6, 0), (7, 0), (8, 0), (9, 0), (10, 0), (11, 0),
   (12, 0), (13, 0), (14, 0), (15, 0), (16, 0), (17, 0), (18, 0), (19, 0), (20, 0), (21, 0),
   (22, 0), (23, 0), (24, 0), (25, 0), (26, 0), (27, 0), (28, 0), (29, 0), (30, 0), (31, 0),
   (32, 172375), (33, 473), (34, 13272), (35, 183), (36, 61), (37, 2657), (38, 1589), (39, 211),
   (40, 3754), (41, 3785), (42, 370), (43, 1191), (44, 34525), (45, 26062), (46, 23541),
   (47, 12241), (48, 117394), (49, 134469), (50, 122382), (51, 71163), (52, 58165), (53, 51636),
   (54, 39978), (55, 40887), (56, 48498), (57, 42766), (58, 60664), (59, 4316), (60, 19),
   (61, 13958), (62, 96), (63, 359), (64, 15), (65, 12315), (66, 5339), (67, 6633), (68, 6866),
   (69, 6922), (70, 9760), (71, 30326), (72, 3827), (73, 6145), (74, 7748), (75, 1863), (76, 3633),
   (77, 37849), (78, 8346), (79, 7175), (80, 4494), (81, 2389), (82, 3339), (83, 23801),
   (84, 47093), (85, 3671), (86, 2909), (87, 7187), (88, 2260), (89, 2436), (90, 1980), (91, 724),
   (92, 122), (93, 735), (94, 53), (95, 3823), (96, 12), (97, 52595), (98, 15736), (99, 41143),
   (100, 24731), (101, 64607), (102, 19373), (103, 18801), (104, 16429), (105, 28479), (106, 4545),
   (107, 4740), (108, 17737), (109, 20585), (110, 28096), (111, 35949), (112, 27630), (113, 4091),
   (114, 26111), (115, 21098), (116, 29704), (117, 26652), (118, 10503), (119, 5251), (120, 11828),
   (121, 6472), (122, 3535), (123, 16), (124, 79), (125, 16), (126, 24), (127, 0), (128, 0),
   (129, 0), (130, 0), (131, 0), (132, 0), (133, 0), (134, 0), (135, 0), (136, 0), (137, 0),
   (138, 0), (139, 0), (140, 0), (141, 0), (142, 0), (143, 0), (144, 0), (145, 0), (146, 0),
   (147, 0), (148, 0), (149, 0), (150, 0), (151, 0), (152, 0), (153, 0), (154, 0), (155, 0),
   (156, 0), (157, 0), (158, 0), (159, 0), (160, 0), (161, 0), (162, 0), (163, 0), (164, 0),
   (165, 0), (166, 0), (167, 0), (168, 0), (169, 0), (170, 0), (171, 0), (172, 0), (173, 0),
   (174, 0), (175, 0), (176, 0), (177, 0), (178, 0), (179, 0), (180, 0), (181, 0), (182, 0),
   (183, 0), (184, 0), (185, 0), (186, 0), (187, 0), (188, 0), (189, 0), (190, 0), (191, 0),
   (192, 0), (193, 0), (194, 0), (195, 0), (196, 0), (197, 0), (198, 0), (199, 0), (200, 0),
   (201, 0), (202, 0), (203, 0), (204, 0), (205, 0), (206, 0), (207, 0), (208, 0), (209, 0),
   (210, 0), (211, 0), (212, 0), (213, 0), (214, 0), (215, 0), (216, 0), (217, 0), (218, 0),
   (219, 0), (220, 0), (221, 0), (222, 0), (223, 0), (224, 0), (225, 0), (226, 0), (227, 0),
   (228, 0), (229, 0), (230, 0), (231, 0), (232, 0), (233, 0), (234, 0), (235, 0), (236, 0),
   (237, 0), (238, 0), (239, 0), (240, 0), (241, 0), (242, 0), (243, 0), (244, 0), (245, 0),
   (246, 0), (247, 0), (248, 0), (249, 0), (250, 0), (251, 0), (252, 0), (253, 0), (254, 0),
   (255, 0), (256, 84578)]

/-- delta/header_freq_tables.py 5-48 (also in bohe, delta_bohe and delta2_bohe). -/
def oldRequestTable : FreqTable :=
  [(0, 0), (1, 0), (2, 0), (3, 0), (4, 0), (5, 0), (6, 0), (7, 0), (8, 0), (9, 0), (10, 0), (11, 0),
   (12, 0), (13, 0), (14, 0), (15, 0), (16, 0), (17, 0), (18, 0), (19, 0), (20, 0), (21, 0),
   (22, 0), (23, 0), (24, 0), (25, 0), (26, 0), (27, 0), (28, 0), (29, 0), (30, 0), (31, 0),
   (32, 61), (33, 9), (34, 0), (35, 0), (36, 2), (37, 1433), (38, 1662), (39, 2), (40, 34),
   (41, 34), (42, 25), (43, 4), (44, 967), (45, 1379), (46, 2886), (47, 4511), (48, 3198),
   (49, 3331), (50, 3597), (51, 2691), (52, 2251), (53, 1880), (54, 2155), (55, 1639), (56, 1916),
   (57, 1728), (58, 171), (59, 214), (60, 0), (61, 2120), (62, 0), (63, 251), (64, 0), (65, 931),
   (66, 481), (67, 566), (68, 696), (69, 362), (70, 545), (71, 513), (72, 328), (73, 524),
   (74, 210), (75, 260), (76, 373), (77, 287), (78, 311), (79, 288), (80, 381), (81, 291),
   (82, 328), (83, 543), (84, 434), (85, 386), (86, 372), (87, 295), (88, 216), (89, 205),
   (90, 199), (91, 2), (92, 0), (93, 2), (94, 0), (95, 1702), (96, 0), (97, 4237), (98, 1601),
   (99, 3203), (100, 2392), (101, 4941), (102, 932), (103, 2297), (104, 1352), (105, 3233),
   (106, 913), (107, 630), (108, 2082), (109, 2429), (110, 3116), (111, 3286), (112, 2510),
   (113, 314), (114, 2646), (115, 3825), (116, 3486), (117, 1298), (118, 839), (119, 1172),
   (120, 760), (121, 705), (122, 352), (123, 12), (124, 12), (125, 12), (126, 4), (127, 0),
   (128, 0), (129, 0), (130, 0), (131, 0), (132, 0), (133, 0), (134, 0), (135, 0), (136, 0),
   (137, 0), (138, 0), (139, 0), (140, 0), (141, 0), (142, 0), (143, 0), (144, 0), (145, 0),
   (146, 0), (147, 0), (148, 0), (149, 0), (150, 0), (151, 0), (152, 0), (153, 0), (154, 0),
   (155, 0), (156, 0), (157, 0), (158, 0), (159, 0), (160, 0), (161, 0), (162, 0), (163, 0),
   (164, 0), (165, 0), (166, 0), (167, 0), (168, 0), (169, 0), (170, 0), (171, 0), (172, 0),
   (173, 0), (174, 0), (175, 0), (176, 0), (177, 0), (178, 0), (179, 0), (180, 0), (181, 0),
   (182, 0), (183, 0), (184, 0), (185, 0), (186, 0), (187, 0), (188, 0), (189, 0), (190, 0),
   (191, 0), (192, 0), (193, 0), (194, 0), (195, 0), (196, 0), (197, 0), (198, 0), (199, 0),
   (200, 0), (201, 0), (202, 0), (203, 0), (204, 0), (205, 0), (206, 0), (207, 0), (208, 0),
   (209, 0), (210, 0), (211, 0), (212, 0), (213, 0), (214, 0), (215, 0), (216, 0), (217, 0),
   (218, 0), (219, 0), (220, 0), (221, 0), (222, 0), (223, 0), (224, 0), (225, 0), (226, 0),
   (227, 0), (228, 0), (229, 0), (230, 0), (231, 0), (232, 0), (233, 0), (234, 0), (235, 0),
   (236, 0), (237, 0), (238, 0), (239, 0), (240, 0), (241, 0), (242, 0), (243, 0), (244, 0),
   (245, 0), (246, 0), (247, 0), (248, 0), (249, 0), (250, 0), (251, 0), (252, 0), (253, 0),
   (254, 0), (255, 0), (256, 1304)]

/-- delta/header_freq_tables.py 50-93 (also in bohe, delta_bohe and delta2_bohe). -/
def oldResponseTable : FreqTable :=
  [(0, 87), (1, 0), (2, 0), (3, 0), (4, 0), (5, 0), (6, 0), (7, 0), (8, 0), (9, 0), (10, 0),
   (11, 0), (12, 0), (13, 0), (14, 0), (15, 0), (16, 0), (17, 0), (18, 0), (19, 0), (20, 0),
   (21, 0), (22, 0), (23, 0), (24, 0), (25, 0), (26, 0), (27, 0), (28, 0), (29, 0), (30, 0),
   (31, 0), (32, 8277), (33, 0), (34, 948), (35, 9), (36, 0), (37, 191), (38, 203), (39, 2),
   (40, 191), (41, 191), (42, 6), (43, 300), (44, 2522), (45, 2374), (46, 1325), (47, 3266),
   (48, 7630), (49, 7965), (50, 7636), (51, 4415), (52, 4337), (53, 3594), (54, 3253), (55, 3223),
   (56, 3920), (57, 3306), (58, 3545), (59, 421), (60, 0), (61, 1626), (62, 0), (63, 24), (64, 0),
   (65, 1644), (66, 820), (67, 1187), (68, 1116), (69, 954), (70, 1260), (71, 1955), (72, 493),
   (73, 674), (74, 875), (75, 560), (76, 544), (77, 2305), (78, 844), (79, 781), (80, 640),
   (81, 537), (82, 555), (83, 965), (84, 2550), (85, 691), (86, 504), (87, 776), (88, 459),
   (89, 507), (90, 476), (91, 11), (92, 0), (93, 11), (94, 0), (95, 436), (96, 0), (97, 5171),
   (98, 3355), (99, 4201), (100, 3265), (101, 5511), (102, 2185), (103, 2455), (104, 1166),
   (105, 3075), (106, 768), (107, 768), (108, 1980), (109, 1582), (110, 3613), (111, 3418),
   (112, 1864), (113, 532), (114, 2488), (115, 2906), (116, 3324), (117, 2433), (118, 1097),
   (119, 927), (120, 1169), (121, 749), (122, 506), (123, 9), (124, 13), (125, 9), (126, 0),
   (127, 0), (128, 0), (129, 0), (130, 0), (131, 0), (132, 0), (133, 0), (134, 0), (135, 0),
   (136, 0), (137, 0), (138, 0), (139, 0), (140, 0), (141, 0), (142, 0), (143, 0), (144, 0),
   (145, 0), (146, 0), (147, 0), (148, 0), (149, 0), (150, 0), (151, 0), (152, 0), (153, 0),
   (154, 0), (155, 0), (156, 0), (157, 0), (158, 0), (159, 0), (160, 0), (161, 0), (162, 0),
   (163, 0), (164, 0), (165, 0), (166, 0), (167, 0), (168, 0), (169, 0), (170, 0), (171, 0),
   (172, 0), (173, 0), (174, 0), (175, 0), (176, 0), (177, 0), (178, 0), (179, 0), (180, 0),
   (181, 0), (182, 0), (183, 0), (184, 0), (185, 0), (186, 0), (187, 0), (188, 0), (189, 0),
   (190, 0), (191, 0), (192, 0), (193, 0), (194, 0), (195, 0), (196, 0), (197, 0), (198, 0),
   (199, 0), (200, 0), (201, 0), (202, 0), (203, 0), (204, 0), (205, 0), (206, 0), (207, 0),
   (208, 0), (209, 0), (210, 0), (211, 0), (212, 0), (213, 0), (214, 0), (215, 0), (216, 0),
   (217, 0), (218, 0), (219, 0), (220, 0), (221, 0), (222, 0), (223, 0), (224, 0), (225, 0),
   (226, 0), (227, 0), (228, 0), (229, 0), (230, 0), (231, 0), (232, 0), (233, 0), (234, 0),
   (235, 0), (236, 0), (237, 0), (238, 0), (239, 0), (240, 0), (241, 0), (242, 0), (243, 0),
   (244, 0), (245, 0), (246, 0), (247, 0), (248, 0), (249, 0), (250, 0), (251, 0), (252, 0),
   (253, 0), (254, 0), (255, 0), (256, 5072)]

end Verif.Huff
