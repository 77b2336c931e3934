import Verif.Huff.Model
/-
The counts of delta/header_freq_tables.cc (the one in delta_bohe has the same text).
-/
namespace Verif.Cpp
open Verif.Huff

/-- delta/header_freq_tables.cc 9-269. -/
def requestTableC : FreqTable :=
  [(0, 0), (1, 0), (2, 0), (3, 0), (4, 0), (5, 0), (6, 0), (7, 0), (8, 0), (9, 0), (10, 0), (11, 0),
   (12, 0), (13, 0), (14, 0), (15, 0), (16, 0), (17, 0), (18, 0), (19, 0), (20, 0), (21, 0),
   (22, 0), (23, 0), (24, 0), (25, 0), (26, 0), (27, 0), (28, 0), (29, 0), (30, 0), (31, 0),
   (32, 28), (33, 39), (34, 0), (35, 0), (36, 2), (37, 1055), (38, 1580), (39, 2), (40, 20),
   (41, 20), (42, 17), (43, 2), (44, 883), (45, 1150), (46, 2225), (47, 3671), (48, 2630),
   (49, 2997), (50, 3089), (51, 2437), (52, 2009), (53, 1637), (54, 2011), (55, 1508), (56, 1689),
   (57, 1524), (58, 146), (59, 122), (60, 0), (61, 2014), (62, 0), (63, 261), (64, 0), (65, 788),
   (66, 404), (67, 548), (68, 602), (69, 386), (70, 470), (71, 427), (72, 391), (73, 498),
   (74, 157), (75, 205), (76, 371), (77, 242), (78, 366), (79, 316), (80, 292), (81, 253),
   (82, 293), (83, 380), (84, 312), (85, 333), (86, 359), (87, 195), (88, 257), (89, 244),
   (90, 227), (91, 2), (92, 0), (93, 2), (94, 0), (95, 1413), (96, 0), (97, 3449), (98, 1231),
   (99, 2375), (100, 1586), (101, 3543), (102, 843), (103, 1853), (104, 1003), (105, 2713),
   (106, 781), (107, 533), (108, 1660), (109, 2005), (110, 2559), (111, 2296), (112, 1963),
   (113, 394), (114, 1931), (115, 3180), (116, 2747), (117, 972), (118, 791), (119, 776),
   (120, 562), (121, 704), (122, 351), (123, 11), (124, 0), (125, 11), (126, 2), (127, 0), (128, 0),
   (129, 0), (130, 0), (131, 0), (132, 0), (133, 0), (134, 0), (135, 0), (136, 0), (137, 0),
   (138, 0), (139, 0), (140, 0), (141, 0), (142, 0), (143, 0), (144, 0), (145, 0), (146, 0),
   (147, 0), (148, 0), (149, 0), (150, 0), (151, 0), (152, 0), (153, 0), (154, 0), (155, 0),
   (156, 0), (157, 0), (158, 0), (159, 0), (160, 0), (161, 0), (162, 0), (163, 0), (164, 0),
   (165, 0), (166, 0), (167, 0), (168, 0), (169, 0), (170, 0), (171, 0), (172, 0), (173, 0),
   (174, 0), (175, 0), (176, 0), (177, 0), (178, 0), (179, 0), (180, 0), (181, 0), (182, 0),
   (183, 0), (184, 0), (185, 0), (186, 0), (187, 0), (188, 0), (189, 0), (190, 0), (191, 0),
   (192, 0), (193, 0), (194, 0), (195, 0), (196, 0), (197, 0), (198, 0), (199, 0), (200, 0),
   (201, 0), (202, 0), (203, 0), (204, 0), (205, 0), (206, 0), (207, 0), (208, 0), (209, 0),
   (210, 0), (211, 0), (212, 0), (213, 0), (214, 0), (215, 0), (216, 0), (217, 0), (218, 0),
   (219, 0), (220, 0), (221, 0), (222, 0), (223, 0), (224, 0), (225, 0), (226, 0), (227, 0),
   (228, 0), (229, 0), (230, 0), (231, 0), (232, 0), (233, 0), (234, 0), (235, 0), (236, 0),
   (237, 0), (238, 0), (239, 0), (240, 0), (241, 0), (242, 0), (243, 0), (244, 0), (245, 0),
   (246, 0), (247, 0), (248, 0), (249, 0), (250, 0), (251, 0), (252, 0), (253, 0), (254, 0),
   (255, 0), (256, 1093)]

/-- delta/header_freq_tables.cc 271-531. -/
def responseTableC : FreqTable :=
  [(0, 57), (1, 0), (2, 0), (3, 0), (4, 0), (5, 0), (6, 0), (7, 0), (8, 0), (9, 0), (10, 0),
   (11, 0), (12, 0), (13, 0), (14, 0), (15, 0), (16, 0), (17, 0), (18, 0), (19, 0), (20, 0),
   (21, 0), (22, 0), (23, 0), (24, 0), (25, 0), (26, 0), (27, 0), (28, 0), (29, 0), (30, 0),
   (31, 0), (32, 6991), (33, 0), (34, 612), (35, 9), (36, 0), (37, 123), (38, 137), (39, 2),
   (40, 187), (41, 187), (42, 5), (43, 284), (44, 1613), (45, 1147), (46, 707), (47, 1062),
   (48, 5583), (49, 5970), (50, 6175), (51, 3323), (52, 3148), (53, 2808), (54, 2549), (55, 2488),
   (56, 2755), (57, 2478), (58, 2600), (59, 306), (60, 0), (61, 1198), (62, 0), (63, 18), (64, 0),
   (65, 1430), (66, 723), (67, 1030), (68, 923), (69, 856), (70, 1170), (71, 1640), (72, 421),
   (73, 543), (74, 810), (75, 464), (76, 477), (77, 2017), (78, 556), (79, 613), (80, 541),
   (81, 458), (82, 496), (83, 844), (84, 2192), (85, 539), (86, 460), (87, 631), (88, 432),
   (89, 458), (90, 455), (91, 2), (92, 0), (93, 2), (94, 0), (95, 249), (96, 0), (97, 2889),
   (98, 1679), (99, 2430), (100, 2142), (101, 3353), (102, 1421), (103, 1468), (104, 876),
   (105, 1599), (106, 525), (107, 561), (108, 1351), (109, 1094), (110, 1982), (111, 2029),
   (112, 1167), (113, 451), (114, 1556), (115, 1245), (116, 1804), (117, 2178), (118, 679),
   (119, 646), (120, 875), (121, 618), (122, 463), (123, 4), (124, 11), (125, 4), (126, 0),
   (127, 0), (128, 0), (129, 0), (130, 0), (131, 0), (132, 0), (133, 0), (134, 0), (135, 0),
   (136, 0), (137, 0), (138, 0), (139, 0), (140, 0), (141, 0), (142, 0), (143, 0), (144, 0),
   (145, 0), (146, 0), (147, 0), (148, 0), (149, 0), (150, 0), (151, 0), (152, 0), (153, 0),
   (154, 0), (155, 0), (156, 0), (157, 0), (158, 0), (159, 0), (160, 0), (161, 0), (162, 0),
   (163, 0), (164, 0), (165, 0), (166, 0), (167, 0), (168, 0), (169, 0), (170, 0), (171, 0),
   (172, 0), (173, 0), (174, 0), (175, 0), (176, 0), (177, 0), (178, 0), (179, 0), (180, 0),
   (181, 0), (182, 0), (183, 0), (184, 0), (185, 0), (186, 0), (187, 0), (188, 0), (189, 0),
   (190, 0), (191, 0), (192, 0), (193, 0), (194, 0), (195, 0), (196, 0), (197, 0), (198, 0),
   (199, 0), (200, 0), (201, 0), (202, 0), (203, 0), (204, 0), (205, 0), (206, 0), (207, 0),
   (208, 0), (209, 0), (210, 0), (211, 0), (212, 0), (213, 0), (214, 0), (215, 0), (216, 0),
   (217, 0), (218, 0), (219, 0), (220, 0), (221, 0), (222, 0), (223, 0), (224, 0), (225, 0),
   (226, 0), (227, 0), (228, 0), (229, 0), (230, 0), (231, 0), (232, 0), (233, 0), (234, 0),
   (235, 0), (236, 0), (237, 0), (238, 0), (239, 0), (240, 0), (241, 0), (242, 0), (243, 0),
   (244, 0), (245, 0), (246, 0), (247, 0), (248, 0), (249, 0), (250, 0), (251, 0), (252, 0),
   (253, 0), (254, 0), (255, 0), (256, 3874)]

end Verif.Cpp
